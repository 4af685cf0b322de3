import Verif.AtomDiag.Complete
import Mathlib.Algebra.BigOperators.Group.Finset.Sigma

/-!
# Model of the matrices of operators in the eigenbasis

Source: `/repo/c++/triqs/atom_diag/impl/worker.cpp:256-277, 343-368`, `/repo/c++/triqs/atom_diag/impl/atom_diag.cpp:71-177`,
`/repo/c++/triqs/atom_diag/impl/functions.cpp:99-112`.

Simplifications as in `Verif.AtomDiag.Complete`. Vectors of the full space are functions of the flattened index; they are
supposed to have at least as many components as there are eigenstates.
-/

namespace Verif.Diag

/-! ## Model -/

section
variable {F K : Type} [CommRing K] [StarRing K]

/-- Fock states of block `b` -/
def Sys.sp (s : Sys F K) (b : ℕ) : List ℕ := s.spaces.getD b []
/-- `get_subspace_dim`, atom_diag.hpp:179 -/
def Sys.dim (s : Sys F K) (b : ℕ) : ℕ := (s.sp b).length
/-- `n_subspaces`, atom_diag.hpp:173 -/
def Sys.n (s : Sys F K) : ℕ := s.spaces.length

/-- `fill_first_eigenstate_of_subspace`, atom_diag.cpp:71-77 -/
def Sys.first (s : Sys F K) : ℕ → ℕ
  | 0 => 0
  | b + 1 => s.first b + s.dim b

/-- `flatten_subspace_index`, atom_diag.hpp:213 -/
def Sys.flat (s : Sys F K) (b a : ℕ) : ℕ := s.first b + a

/-- `imp_op(from_s)` for a basis state `i` of the full space, as a function of the Fock state -/
def applyFull (i : ℕ) : List (Mono K) → (ℕ → K) → ℕ → K
  | [], v => v
  | t :: ts, v => match t i with
    | none => applyFull i ts v
    | some (f, x) => applyFull i ts (Function.update v f (v f + x))

/-- `dagger(U_to) * m * U_from` -/
def Sys.rot (s : Sys F K) (dst frm : ℕ) (m : ℕ → ℕ → K) (a a' : ℕ) : K :=
  ∑ i ∈ Finset.range (s.dim frm), (∑ j ∈ Finset.range (s.dim dst), star (s.U dst j a) * m j i) * s.U frm i a'

/-- `make_op_matrix`, worker.cpp:256-277 -/
def Sys.makeOpMatrix (s : Sys F K) (op : List (Mono K)) (frm dst : ℕ) : ℕ → ℕ → K :=
  s.rot dst frm fun j i => applyFull ((s.sp frm).getD i 0) op (fun _ => 0) ((s.sp dst).getD j 0)

/-- `c_matrices[n]` or `cdag_matrices[n]`, worker.cpp:353-365, from a row of the connection table -/
def Sys.canonMatrix (s : Sys F K) (conn : ℕ → Option ℕ) (op : List (Mono K)) (B : ℕ) : Option (ℕ → ℕ → K) :=
  (conn B).map fun Bp => s.makeOpMatrix op B Bp

/-- outcomes: a value, an exception, undefined behaviour -/
inductive Out (α : Type) where
  | ok (a : α)
  | exn
  | undef

/-- the first block that contains a Fock state, atom_diag.cpp:123-131 -/
def Sys.findBlock (s : Sys F K) (f : ℕ) : Option ℕ := s.spaces.findIdx? fun sp => decide (f ∈ sp)

/-- the loop over the states of block `B`, atom_diag.cpp:111-135; `js` are the indices left, `st` is the pair (rows of the
matrix, `Bp`). `none`: element outside of the matrix. -/
def Sys.melLoop (s : Sys F K) (t : Mono K) (B : ℕ) : List ℕ → Option (ℕ × ℕ) → (ℕ → ℕ → K) → Option (Option (ℕ × ℕ) × (ℕ → ℕ → K))
  | [], st, m => some (st, m)
  | i :: is, st, m => match t ((s.sp B).getD i 0) with
    | none => s.melLoop t B is st m
    | some (f, x) => match s.findBlock f with
      | none => s.melLoop t B is st m
      | some Bp =>
        let rows := (st.map Prod.fst).getD (s.dim Bp);
        if (s.sp Bp).idxOf f < rows then
          s.melLoop t B is (some (rows, Bp)) (fun j k => if j = (s.sp Bp).idxOf f ∧ k = i then x else m j k)
        else none

/-- `get_matrix_element_of_monomial`, atom_diag.cpp:106-140; `ok none` is `-1` with an empty matrix -/
def Sys.matrixElement (s : Sys F K) (t : Mono K) (B : ℕ) : Out (Option (ℕ × (ℕ → ℕ → K))) :=
  match s.melLoop t B (List.range (s.dim B)) none (fun _ _ => 0) with
  | none => .undef
  | some (none, _) => .ok none
  | some (some (rows, Bp), m) => if rows = s.dim Bp then .ok (some (Bp, s.rot Bp B m)) else .undef

/-- the loop over the terms of an operator in `get_op_mat`, atom_diag.cpp:148-160 -/
def Sys.opMatLoop (s : Sys F K) (b : ℕ) : List (K × Mono K) → Option (ℕ × (ℕ → ℕ → K)) → Out (Option (ℕ × (ℕ → ℕ → K)))
  | [], st => .ok st
  | e :: es, st => match s.matrixElement e.2 b with
    | .undef => .undef
    | .exn => .exn
    | .ok none => s.opMatLoop b es st
    | .ok (some (bb, mat)) => match st with
      | none => s.opMatLoop b es (some (bb, fun a a' => e.1 * mat a a'))
      | some (c, m) => if c ≠ bb then .exn else s.opMatLoop b es (some (c, fun a a' => m a a' + e.1 * mat a a'))

/-- `get_op_mat`, atom_diag.cpp:144-177, one block. `check`: the environment variable `CHECK_ISSUE833` is set; `affected` is the
comparison with the rotated matrix, atom_diag.cpp:166-173; `eigensystems[-1]` is undefined. -/
def Sys.opMat (s : Sys F K) (check : Bool) (affected : ℕ → ℕ → (ℕ → ℕ → K) → Bool) (op : List (K × Mono K)) (b : ℕ) : Out (Option (ℕ × (ℕ → ℕ → K))) :=
  match s.opMatLoop b op none with
  | .ok none => if check then .undef else .ok none
  | .ok (some (c, m)) => if check && affected b c m then .exn else .ok (some (c, m))
  | r => r

/-- the loop over the blocks in `act`, functions.cpp:105-109; `bs` are the blocks left -/
def Sys.actBlocks (s : Sys F K) (x : K) (t : Mono K) (st : ℕ → K) : List ℕ → (ℕ → K) → Option (ℕ → K)
  | [], res => some res
  | bl :: bs, res => match s.matrixElement t bl with
    | .ok none => s.actBlocks x t st bs res
    | .ok (some (b, m)) => s.actBlocks x t st bs fun k =>
        if s.first b ≤ k ∧ k < s.first b + s.dim b then
          res k + x * ∑ a' ∈ Finset.range (s.dim bl), m (k - s.first b) a' * st (s.flat bl a')
        else res k
    | _ => none

/-- `act`, functions.cpp:99-112 -/
def Sys.act (s : Sys F K) (st : ℕ → K) : List (K × Mono K) → (ℕ → K) → Option (ℕ → K)
  | [], res => some res
  | e :: es, res => match s.actBlocks e.1 e.2 st (List.range s.n) res with
    | none => none
    | some res' => s.act st es res'

/-- `compute_vacuum`, atom_diag.cpp:81-91: number of the block and vector; without the vacuum in any block the number is not
initialised (`none`) -/
def Sys.vacuum (s : Sys F K) : Option ℕ × (ℕ → K) := match s.findBlock 0 with
  | none => (none, fun _ => 0)
  | some b => (some b, fun k => if s.first b ≤ k ∧ k < s.first b + s.dim b then star (s.U b 0 (k - s.first b)) else 0)

end

/-! ## Specification -/

section
variable {F K : Type} [CommRing K] [StarRing K]

/-- blocks have distinct states and do not intersect -/
structure Sys.Blocks (s : Sys F K) : Prop where
  nodup : ∀ b < s.n, (s.sp b).Nodup
  disjoint : ∀ b < s.n, ∀ b' < s.n, ∀ f, f ∈ s.sp b → f ∈ s.sp b' → b = b'

/-- the monomial maps the states of block `b` to states of one block, or out of all blocks -/
def Sys.OneBlock (s : Sys F K) (t : Mono K) (b : ℕ) : Prop :=
  ∃ b' < s.n, ∀ i ∈ s.sp b, ∀ f x, t i = some (f, x) → f ∈ s.sp b' ∨ ∀ b'' < s.n, f ∉ s.sp b''

/-- the element of the operator with Fock matrix `O` between eigenstates `a` of block `b` and `a'` of block `b'` -/
def Sys.elem (s : Sys F K) (O : ℕ → ℕ → K) (b a b' a' : ℕ) : K :=
  ∑ j ∈ Finset.range (s.dim b), ∑ i ∈ Finset.range (s.dim b'), star (s.U b j a) * O ((s.sp b).getD j 0) ((s.sp b').getD i 0) * s.U b' i a'

/-- Fock matrix of a linear combination of monomials -/
def combEntry (op : List (K × Mono K)) (f i : ℕ) : K := (op.map fun e => e.1 * entry e.2 f i).sum

/-- columns and rows of the matrices of eigenvectors are orthonormal -/
structure Sys.Unitary (s : Sys F K) : Prop where
  columns : ∀ b < s.n, ∀ a < s.dim b, ∀ a' < s.dim b, ∑ j ∈ Finset.range (s.dim b), star (s.U b j a) * s.U b j a' = if a = a' then 1 else 0
  rows : ∀ b < s.n, ∀ j < s.dim b, ∀ k < s.dim b, ∑ a ∈ Finset.range (s.dim b), s.U b j a * star (s.U b k a) = if j = k then 1 else 0

end

/-! ## Proofs -/

section
variable {F K : Type} [CommRing K] [StarRing K]

theorem applyFull_eq (i : ℕ) (ts : List (Mono K)) : ∀ (v : ℕ → K) (f : ℕ), applyFull i ts v f = v f + opEntry ts f i := by
  induction ts with
  | nil => intro v f; simp [applyFull, opEntry]
  | cons t ts ih =>
    intro v f
    unfold applyFull
    cases h : t i with
    | none => simp only [ih, opEntry, List.map_cons, List.sum_cons, entry, h, zero_add]
    | some p =>
      obtain ⟨f', x⟩ := p
      simp only [ih, opEntry, List.map_cons, List.sum_cons, entry, h, Function.update_apply]
      by_cases e : f = f'
      · subst e; simp only [if_true]; ring
      · rw [if_neg e, if_neg (fun h => e h.symm)]; ring

theorem rot_eq (s : Sys F K) (dst frm : ℕ) (O : ℕ → ℕ → K) (m : ℕ → ℕ → K)
    (h : ∀ j < s.dim dst, ∀ i < s.dim frm, m j i = O ((s.sp dst).getD j 0) ((s.sp frm).getD i 0)) (a a' : ℕ) :
    s.rot dst frm m a a' = s.elem O dst a frm a' := by
  unfold Sys.rot Sys.elem
  rw [Finset.sum_comm]
  apply Finset.sum_congr rfl
  intro i hi
  rw [Finset.sum_mul]
  apply Finset.sum_congr rfl
  intro j hj
  rw [h j (Finset.mem_range.mp hj) i (Finset.mem_range.mp hi)]

/-- **C88, stored matrices.** The matrices of the creation and annihilation operators are the blocks of the operator in the
eigenbasis. -/
theorem C88_make_op_matrix (s : Sys F K) (op : List (Mono K)) (frm dst a a' : ℕ) :
    s.makeOpMatrix op frm dst a a' = s.elem (opEntry op) dst a frm a' := by
  apply rot_eq
  intro j _ i _
  rw [applyFull_eq, zero_add]

theorem findBlock_spec (s : Sys F K) (hb : s.Blocks) (f : ℕ) : (∀ b < s.n, f ∈ s.sp b → s.findBlock f = some b) ∧
    ((∀ b < s.n, f ∉ s.sp b) → s.findBlock f = none) := by
  have hget : ∀ b (h : b < s.n), s.sp b = s.spaces[b]'h := fun b h => by
    unfold Sys.sp; rw [List.getD_eq_getElem?_getD, List.getElem?_eq_getElem h]; rfl
  constructor
  · intro b hlt hf
    unfold Sys.findBlock
    rw [List.findIdx?_eq_some_iff_getElem]
    refine ⟨hlt, by rw [← hget b hlt]; simpa using hf, fun c hc => ?_⟩
    have hc' : c < s.n := lt_trans hc hlt
    have hm : f ∉ s.spaces[c]'hc' := by
      intro hm
      rw [← hget c hc'] at hm
      have := hb.disjoint c hc' b hlt f hm hf
      omega
    exact fun h => hm (of_decide_eq_true h)
  · intro h
    unfold Sys.findBlock
    rw [List.findIdx?_eq_none_iff]
    intro sp hsp
    obtain ⟨b, hlt, he⟩ := List.mem_iff_getElem.mp hsp
    have := h b hlt
    rw [hget b hlt, he] at this
    simpa using this

theorem entry_of (t : Mono K) (i f : ℕ) (x : K) (h : t i = some (f, x)) (g : ℕ) : entry t g i = if f = g then x else 0 := by
  simp only [entry, h]

theorem getD_mem {l : List ℕ} {j : ℕ} (h : j < l.length) : l.getD j 0 ∈ l := by
  rw [List.getD_eq_getElem?_getD, List.getElem?_eq_getElem h]; exact List.getElem_mem h

theorem getD_idxOf {l : List ℕ} {f : ℕ} (h : f ∈ l) : l.getD (l.idxOf f) 0 = f := by
  rw [List.getD_eq_getElem?_getD, List.getElem?_eq_getElem (List.idxOf_lt_length_iff.mpr h)]; exact List.getElem_idxOf _

theorem idxOf_getD {l : List ℕ} (hn : l.Nodup) {j : ℕ} (h : j < l.length) : l.idxOf (l.getD j 0) = j := by
  rw [List.getD_eq_getElem?_getD, List.getElem?_eq_getElem h]; exact List.Nodup.idxOf_getElem hn _ _

theorem melLoop_spec (s : Sys F K) (hb : s.Blocks) (t : Mono K) (B : ℕ) (b' : ℕ) (hb' : b' < s.n)
    (ht : ∀ i ∈ s.sp B, ∀ f x, t i = some (f, x) → f ∈ s.sp b' ∨ ∀ b'' < s.n, f ∉ s.sp b'') :
    ∀ (is : List ℕ) (st : Option (ℕ × ℕ)) (m : ℕ → ℕ → K), is.Nodup → (∀ i ∈ is, i < s.dim B) → (st = none ∨ st = some (s.dim b', b')) →
      (∀ i ∈ is, ∀ j, m j i = 0) →
      ∃ st' m', s.melLoop t B is st m = some (st', m') ∧ (st' = none ∨ st' = some (s.dim b', b')) ∧
        (st' = none → st = none ∧ ∀ i ∈ is, ∀ b < s.n, ∀ j < s.dim b, entry t ((s.sp b).getD j 0) ((s.sp B).getD i 0) = 0) ∧
        (∀ i, i ∉ is → ∀ j, m' j i = m j i) ∧
        (∀ i ∈ is, ∀ j < s.dim b', m' j i = entry t ((s.sp b').getD j 0) ((s.sp B).getD i 0)) ∧
        (∀ i ∈ is, ∀ b < s.n, b ≠ b' → ∀ j < s.dim b, entry t ((s.sp b).getD j 0) ((s.sp B).getD i 0) = 0) := by
  intro is
  induction is with
  | nil => intro st m _ _ hst _; exact ⟨st, m, rfl, hst, fun h => ⟨h, fun i hi => by cases hi⟩, fun _ _ _ => rfl, fun i hi => (by cases hi), fun i hi => (by cases hi)⟩
  | cons i is ih =>
    intro st m hn hlt hst hm
    have hi : i < s.dim B := hlt i (by simp)
    have hni : i ∉ is := (List.nodup_cons.mp hn).1
    have hsk : (∀ b < s.n, ∀ j < s.dim b, entry t ((s.sp b).getD j 0) ((s.sp B).getD i 0) = 0) →
        s.melLoop t B (i :: is) st m = s.melLoop t B is st m →
        ∃ st' m', s.melLoop t B (i :: is) st m = some (st', m') ∧ (st' = none ∨ st' = some (s.dim b', b')) ∧
        (st' = none → st = none ∧ ∀ k ∈ i :: is, ∀ b < s.n, ∀ j < s.dim b, entry t ((s.sp b).getD j 0) ((s.sp B).getD k 0) = 0) ∧
        (∀ k, k ∉ i :: is → ∀ j, m' j k = m j k) ∧
        (∀ k ∈ i :: is, ∀ j < s.dim b', m' j k = entry t ((s.sp b').getD j 0) ((s.sp B).getD k 0)) ∧
        (∀ k ∈ i :: is, ∀ b < s.n, b ≠ b' → ∀ j < s.dim b, entry t ((s.sp b).getD j 0) ((s.sp B).getD k 0) = 0) := by
      intro hz he
      obtain ⟨st', m', h1, h2, h3, h4, h5, h6⟩ := ih st m (List.nodup_cons.mp hn).2 (fun k hk => hlt k (by simp [hk])) hst (fun k hk => hm k (by simp [hk]))
      refine ⟨st', m', he.trans h1, h2, fun h => ⟨(h3 h).1, fun k hk => ?_⟩, fun k hk => h4 k (by simp at hk; exact hk.2), fun k hk => ?_, fun k hk => ?_⟩
      · rcases List.mem_cons.mp hk with rfl | hk
        · exact hz
        · exact (h3 h).2 k hk
      · rcases List.mem_cons.mp hk with rfl | hk
        · intro j hj
          rw [hz b' hb' j hj, h4 k hni j, hm k (by simp) j]
        · exact h5 k hk
      · rcases List.mem_cons.mp hk with rfl | hk
        · intro b hlb _; exact hz b hlb
        · exact h6 k hk
    cases he : t ((s.sp B).getD i 0) with
    | none =>
      apply hsk
      · intro b _ j _; simp only [entry, he]
      · rw [Sys.melLoop]; simp only [he]
    | some p =>
      obtain ⟨f, x⟩ := p
      rcases ht _ (getD_mem hi) f x he with hf | hf
      · have hfind := (findBlock_spec s hb f).1 b' hb' hf
        have hidx : (s.sp b').idxOf f < s.dim b' := List.idxOf_lt_length_iff.mpr hf
        have hrows : (st.map Prod.fst).getD (s.dim b') = s.dim b' := by rcases hst with h | h <;> rw [h] <;> rfl
        have hstep : s.melLoop t B (i :: is) st m =
            s.melLoop t B is (some (s.dim b', b')) (fun j k => if j = (s.sp b').idxOf f ∧ k = i then x else m j k) := by
          rw [Sys.melLoop]
          simp only [he, hfind]
          rw [hrows, if_pos hidx]
        obtain ⟨st', m', h1, h2, h3, h4, h5, h6⟩ := ih (some (s.dim b', b')) (fun j k => if j = (s.sp b').idxOf f ∧ k = i then x else m j k)
          (List.nodup_cons.mp hn).2 (fun k hk => hlt k (by simp [hk])) (Or.inr rfl)
          (fun k hk j => by
            rw [if_neg]
            · exact hm k (by simp [hk]) j
            · rintro ⟨_, rfl⟩; exact hni hk)
        refine ⟨st', m', hstep.trans h1, h2, fun h => (by have := (h3 h).1; cases this), fun k hk j => ?_, fun k hk => ?_, fun k hk => ?_⟩
        · simp at hk
          rw [h4 k hk.2 j, if_neg]
          rintro ⟨_, rfl⟩; exact hk.1 rfl
        · rcases List.mem_cons.mp hk with rfl | hk
          · intro j hj
            rw [h4 k hni j, entry_of t _ f x he]
            by_cases hj' : j = (s.sp b').idxOf f
            · rw [if_pos ⟨hj', rfl⟩, if_pos (by rw [hj', getD_idxOf hf])]
            · rw [if_neg (fun h => hj' h.1), if_neg, hm k (by simp) j]
              intro h
              apply hj'
              rw [h, idxOf_getD (hb.nodup b' hb') hj]
          · exact h5 k hk
        · rcases List.mem_cons.mp hk with rfl | hk
          · intro b hlb hne j hj
            rw [entry_of t _ f x he, if_neg]
            intro h
            exact hne (hb.disjoint b hlb b' hb' f (by rw [h]; exact getD_mem hj) hf)
          · exact h6 k hk
      · apply hsk
        · intro b hlb j hj
          rw [entry_of t _ f x he, if_neg]
          intro h
          exact hf b hlb (by rw [h]; exact getD_mem hj)
        · rw [Sys.melLoop]; simp only [he, (findBlock_spec s hb f).2 hf]

/-- **C88, matrix element of a monomial.** For a monomial that maps the block into one block, the function returns that block
and the matrix of the monomial in the eigenbasis; it returns `-1` only when all matrix elements from the block vanish. -/
theorem C88_monomial (s : Sys F K) (hb : s.Blocks) (t : Mono K) (B : ℕ) (ht : s.OneBlock t B) :
    (s.matrixElement t B = .ok none ∧ ∀ b < s.n, ∀ a a', s.elem (entry t) b a B a' = 0) ∨
    ∃ b' m, b' < s.n ∧ s.matrixElement t B = .ok (some (b', m)) ∧ (∀ a a', m a a' = s.elem (entry t) b' a B a') ∧
      ∀ b < s.n, b ≠ b' → ∀ a a', s.elem (entry t) b a B a' = 0 := by
  obtain ⟨b', hb', ht⟩ := ht
  obtain ⟨st', m', h1, h2, h3, h4, h5, h6⟩ := melLoop_spec s hb t B b' hb' ht (List.range (s.dim B)) none (fun _ _ => 0) List.nodup_range
    (fun i hi => List.mem_range.mp hi) (Or.inl rfl) (fun _ _ _ => rfl)
  have zero : ∀ b, (∀ i ∈ List.range (s.dim B), ∀ j < s.dim b, entry t ((s.sp b).getD j 0) ((s.sp B).getD i 0) = 0) → ∀ a a', s.elem (entry t) b a B a' = 0 := by
    intro b h a a'
    unfold Sys.elem
    apply Finset.sum_eq_zero
    intro j hj
    apply Finset.sum_eq_zero
    intro i hi
    rw [h i (List.mem_range.mpr (Finset.mem_range.mp hi)) j (Finset.mem_range.mp hj)]
    ring
  rcases h2 with h2 | h2
  · left
    refine ⟨?_, fun b hlb => zero b fun i hi => (h3 h2).2 i hi b hlb⟩
    unfold Sys.matrixElement
    rw [h1, h2]
  · right
    refine ⟨b', s.rot b' B m', hb', ?_, fun a a' => ?_, fun b hlb hne => zero b fun i hi => h6 i hi b hlb hne⟩
    · unfold Sys.matrixElement
      rw [h1, h2]
      simp
    · apply rot_eq
      intro j hj i hi
      exact h5 i (List.mem_range.mpr hi) j hj

theorem elem_smul (s : Sys F K) (x : K) (O : ℕ → ℕ → K) (b a b' a' : ℕ) : s.elem (fun f i => x * O f i) b a b' a' = x * s.elem O b a b' a' := by
  unfold Sys.elem
  rw [Finset.mul_sum]
  apply Finset.sum_congr rfl
  intro j _
  rw [Finset.mul_sum]
  apply Finset.sum_congr rfl
  intro i _
  ring

theorem elem_add (s : Sys F K) (O O' : ℕ → ℕ → K) (b a b' a' : ℕ) :
    s.elem (fun f i => O f i + O' f i) b a b' a' = s.elem O b a b' a' + s.elem O' b a b' a' := by
  unfold Sys.elem
  rw [← Finset.sum_add_distrib]
  apply Finset.sum_congr rfl
  intro j _
  rw [← Finset.sum_add_distrib]
  apply Finset.sum_congr rfl
  intro i _
  ring

theorem elem_comb_cons (s : Sys F K) (e : K × Mono K) (op : List (K × Mono K)) (b a b' a' : ℕ) :
    s.elem (combEntry (e :: op)) b a b' a' = e.1 * s.elem (entry e.2) b a b' a' + s.elem (combEntry op) b a b' a' := by
  rw [← elem_smul, ← elem_add]
  congr 1

theorem elem_comb_nil (s : Sys F K) (b a b' a' : ℕ) : s.elem (combEntry []) b a b' a' = 0 := by
  simp [Sys.elem, combEntry]

theorem opMatLoop_spec (s : Sys F K) (hb : s.Blocks) (b : ℕ) : ∀ (op : List (K × Mono K)) (st : Option (ℕ × (ℕ → ℕ → K))),
    (∀ e ∈ op, s.OneBlock e.2 b) → (∀ c m, st = some (c, m) → c < s.n) →
    s.opMatLoop b op st ≠ .undef ∧
    ∀ r, s.opMatLoop b op st = .ok r → (r = none → st = none ∧ ∀ c < s.n, ∀ a a', s.elem (combEntry op) c a b a' = 0) ∧
      (∀ c m, r = some (c, m) → c < s.n ∧ (∀ a a', m a a' = (match st with | none => 0 | some (_, m0) => m0 a a') + s.elem (combEntry op) c a b a') ∧
        (∀ c' < s.n, c' ≠ c → ∀ a a', s.elem (combEntry op) c' a b a' = 0) ∧ (∀ c0 m0, st = some (c0, m0) → c0 = c)) := by
  intro op
  induction op with
  | nil =>
    intro st _ hst
    refine ⟨(by intro h; cases h), fun r hr => ?_⟩
    simp only [Sys.opMatLoop, Out.ok.injEq] at hr
    subst hr
    refine ⟨fun h => ⟨h, fun c _ a a' => elem_comb_nil s _ _ _ _⟩, fun c m h => ⟨hst c m h, fun a a' => ?_, fun c' _ _ a a' => elem_comb_nil s _ _ _ _, fun c0 m0 h0 => ?_⟩⟩
    · rw [h, elem_comb_nil, add_zero]
    · rw [h] at h0; simp at h0; exact h0.1.symm
  | cons e op ih =>
    intro st hop hst
    have hop' : ∀ e' ∈ op, s.OneBlock e'.2 b := fun e' he' => hop e' (by simp [he'])
    rcases C88_monomial s hb e.2 b (hop e (by simp)) with ⟨h1, h2⟩ | ⟨b', m', hb', h1, h2, h3⟩
    · have heq : s.opMatLoop b (e :: op) st = s.opMatLoop b op st := by rw [Sys.opMatLoop, h1]
      rw [heq]
      refine ⟨(ih st hop' hst).1, fun r hr => ?_⟩
      obtain ⟨k1, k2⟩ := (ih st hop' hst).2 r hr
      refine ⟨fun h => ⟨(k1 h).1, fun c hc a a' => ?_⟩, fun c m h => ?_⟩
      · rw [elem_comb_cons, h2 c hc, (k1 h).2 c hc, mul_zero, add_zero]
      · obtain ⟨k3, k4, k5, k6⟩ := k2 c m h
        refine ⟨k3, fun a a' => ?_, fun c' hc' hne a a' => ?_, k6⟩
        · rw [k4 a a', elem_comb_cons, h2 c k3, mul_zero, zero_add]
        · rw [elem_comb_cons, h2 c' hc', k5 c' hc' hne, mul_zero, add_zero]
    · cases st with
      | none =>
        have heq : s.opMatLoop b (e :: op) none = s.opMatLoop b op (some (b', fun a a' => e.1 * m' a a')) := by rw [Sys.opMatLoop, h1]
        rw [heq]
        have hst' : ∀ c m, some (b', fun a a' => e.1 * m' a a') = some (c, m) → c < s.n := by
          intro c m h; simp at h; rw [← h.1]; exact hb'
        refine ⟨(ih _ hop' hst').1, fun r hr => ?_⟩
        obtain ⟨k1, k2⟩ := (ih _ hop' hst').2 r hr
        refine ⟨fun h => (by have := (k1 h).1; cases this), fun c m h => ?_⟩
        obtain ⟨k3, k4, k5, k6⟩ := k2 c m h
        have hc := k6 _ _ rfl
        subst hc
        refine ⟨k3, fun a a' => ?_, fun c' hc' hne a a' => ?_, fun c0 m0 h0 => by cases h0⟩
        · rw [k4 a a', elem_comb_cons, ← h2 a a', zero_add]
        · rw [elem_comb_cons, h3 c' hc' hne, k5 c' hc' hne, mul_zero, add_zero]
      | some p =>
        obtain ⟨c, m0⟩ := p
        by_cases hcb : c ≠ b'
        · have heq : s.opMatLoop b (e :: op) (some (c, m0)) = .exn := by rw [Sys.opMatLoop, h1]; simp only [if_pos hcb]
          rw [heq]
          exact ⟨(by intro h; cases h), fun r hr => by cases hr⟩
        · have heq : s.opMatLoop b (e :: op) (some (c, m0)) = s.opMatLoop b op (some (c, fun a a' => m0 a a' + e.1 * m' a a')) := by
            rw [Sys.opMatLoop, h1]; simp only [if_neg hcb]
          rw [heq]
          have hcb' : c = b' := not_not.mp hcb
          have hst' : ∀ c1 m1, some (c, fun a a' => m0 a a' + e.1 * m' a a') = some (c1, m1) → c1 < s.n := by
            intro c1 m1 h; simp at h; rw [← h.1, hcb']; exact hb'
          refine ⟨(ih _ hop' hst').1, fun r hr => ?_⟩
          obtain ⟨k1, k2⟩ := (ih _ hop' hst').2 r hr
          refine ⟨fun h => (by have := (k1 h).1; cases this), fun c1 m h => ?_⟩
          obtain ⟨k3, k4, k5, k6⟩ := k2 c1 m h
          have hc := k6 _ _ rfl
          subst hc
          refine ⟨k3, fun a a' => ?_, fun c' hc' hne a a' => ?_, fun c0 m1 h0 => by simp at h0; exact h0.1.symm⟩
          · rw [k4 a a', elem_comb_cons, hcb', ← h2 a a', add_assoc]
          · rw [elem_comb_cons, h3 c' hc' (hcb' ▸ hne), k5 c' hc' hne, mul_zero, add_zero]

/-- **C88, block matrices of operators.** When the function returns, the connection and the matrix are those of the operator in the
eigenbasis: all matrix elements to other blocks vanish. -/
theorem C88_op_mat (s : Sys F K) (hb : s.Blocks) (affected : ℕ → ℕ → (ℕ → ℕ → K) → Bool) (op : List (K × Mono K)) (b : ℕ) (hop : ∀ e ∈ op, s.OneBlock e.2 b) :
    s.opMat false affected op b ≠ .undef ∧
    (s.opMat false affected op b = .ok none → ∀ c < s.n, ∀ a a', s.elem (combEntry op) c a b a' = 0) ∧
    (∀ c m, s.opMat false affected op b = .ok (some (c, m)) → c < s.n ∧ (∀ a a', m a a' = s.elem (combEntry op) c a b a') ∧
      ∀ c' < s.n, c' ≠ c → ∀ a a', s.elem (combEntry op) c' a b a' = 0) := by
  obtain ⟨h1, h2⟩ := opMatLoop_spec s hb b op none hop (fun c m h => by cases h)
  unfold Sys.opMat
  cases hl : s.opMatLoop b op none with
  | undef => exact absurd hl h1
  | exn => simp
  | ok r =>
    obtain ⟨k1, k2⟩ := h2 r hl
    cases r with
    | none =>
      refine ⟨by simp, fun _ => (k1 rfl).2, fun c m h => ?_⟩
      simp at h
    | some p =>
      obtain ⟨c, m⟩ := p
      obtain ⟨k3, k4, k5, _⟩ := k2 c m rfl
      refine ⟨by simp, fun h => by simp at h, fun c' m' h => ?_⟩
      simp at h
      obtain ⟨rfl, rfl⟩ := h
      exact ⟨k3, fun a a' => by rw [k4 a a']; simp, k5⟩

/-- **C88, the check of issue 833.** With the environment variable set, an operator that vanishes on a block makes the code use
`eigensystems[-1]`. -/
theorem C88_check833 (s : Sys F K) (affected : ℕ → ℕ → (ℕ → ℕ → K) → Bool) (op : List (K × Mono K)) (b : ℕ)
    (h : s.opMat false affected op b = .ok none) : s.opMat true affected op b = .undef := by
  unfold Sys.opMat at *
  cases hl : s.opMatLoop b op none with
  | undef => rfl
  | exn => rw [hl] at h; cases h
  | ok r =>
    rw [hl] at h
    cases r with
    | none => rfl
    | some p => cases h

/-! ### Flattened indices -/

theorem first_mono (s : Sys F K) : ∀ (b b' : ℕ), b < b' → s.first b + s.dim b ≤ s.first b' := by
  intro b b' h
  induction b' with
  | zero => omega
  | succ b' ih =>
    rcases Nat.eq_or_lt_of_le (Nat.lt_succ_iff.mp h) with h' | h'
    · subst h'; exact le_rfl
    · exact (ih h').trans (Nat.le_add_right _ _)

/-- **C89.** The flattened index numbers the eigenstates: different pairs have different numbers, and every number below the
sum of the dimensions is the number of a pair. -/
theorem C89_flat (s : Sys F K) : (∀ b a b' a', a < s.dim b → a' < s.dim b' → s.flat b a = s.flat b' a' → b = b' ∧ a = a') ∧
    (∀ n k, k < ∑ b ∈ Finset.range n, s.dim b → ∃ b a, b < n ∧ a < s.dim b ∧ s.flat b a = k) ∧
    (∀ n b a, b < n → a < s.dim b → s.flat b a < ∑ b ∈ Finset.range n, s.dim b) := by
  have hsum : ∀ n, ∑ b ∈ Finset.range n, s.dim b = s.first n := by
    intro n
    induction n with
    | zero => rfl
    | succ n ih => rw [Finset.sum_range_succ, ih]; rfl
  refine ⟨fun b a b' a' ha ha' h => ?_, fun n k hk => ?_, fun n b a hb ha => ?_⟩
  · unfold Sys.flat at h
    rcases lt_trichotomy b b' with hb | hb | hb
    · have := first_mono s b b' hb; omega
    · subst hb; exact ⟨rfl, by omega⟩
    · have := first_mono s b' b hb; omega
  · rw [hsum] at hk
    induction n with
    | zero => exact absurd hk (Nat.not_lt_zero _)
    | succ n ih =>
      by_cases h : k < s.first n
      · obtain ⟨b, a, h1, h2, h3⟩ := ih h
        exact ⟨b, a, by omega, h2, h3⟩
      · refine ⟨n, k - s.first n, by omega, ?_, ?_⟩
        · have : s.first (n + 1) = s.first n + s.dim n := rfl
          omega
        · unfold Sys.flat; omega
  · rw [hsum]
    unfold Sys.flat
    have := first_mono s b n hb
    omega

/-! ### Action on vectors -/

theorem actBlocks_spec (s : Sys F K) (hb : s.Blocks) (x : K) (t : Mono K) (st : ℕ → K) (ht : ∀ b < s.n, s.OneBlock t b) :
    ∀ (bs : List ℕ) (res : ℕ → K), (∀ b ∈ bs, b < s.n) →
      ∃ r, s.actBlocks x t st bs res = some r ∧ ∀ b < s.n, ∀ a < s.dim b, r (s.flat b a) = res (s.flat b a) +
        (bs.map fun bl => x * ∑ a' ∈ Finset.range (s.dim bl), s.elem (entry t) b a bl a' * st (s.flat bl a')).sum := by
  intro bs
  induction bs with
  | nil => intro res _; exact ⟨res, rfl, fun b _ a _ => by simp⟩
  | cons bl bs ih =>
    intro res hbs
    have hbl := hbs bl (by simp)
    have hbs' : ∀ b ∈ bs, b < s.n := fun b h => hbs b (by simp [h])
    rcases C88_monomial s hb t bl (ht bl hbl) with ⟨h1, h2⟩ | ⟨b', m', hb', h1, h2, h3⟩
    · obtain ⟨r, k1, k2⟩ := ih res hbs'
      refine ⟨r, by rw [Sys.actBlocks, h1]; exact k1, fun b hlb a ha => ?_⟩
      rw [k2 b hlb a ha, List.map_cons, List.sum_cons]
      have : ∑ a' ∈ Finset.range (s.dim bl), s.elem (entry t) b a bl a' * st (s.flat bl a') = 0 :=
        Finset.sum_eq_zero fun a' _ => by rw [h2 b hlb, zero_mul]
      rw [this, mul_zero, zero_add]
    · obtain ⟨r, k1, k2⟩ := ih (fun k =>
        if s.first b' ≤ k ∧ k < s.first b' + s.dim b' then
          res k + x * ∑ a' ∈ Finset.range (s.dim bl), m' (k - s.first b') a' * st (s.flat bl a')
        else res k) hbs'
      refine ⟨r, by rw [Sys.actBlocks, h1]; exact k1, fun b hlb a ha => ?_⟩
      rw [k2 b hlb a ha, List.map_cons, List.sum_cons]
      by_cases hbb : b = b'
      · subst hbb
        rw [if_pos (by unfold Sys.flat; omega), show s.flat b a - s.first b = a by unfold Sys.flat; omega, add_assoc]
        congr 3
        apply Finset.sum_congr rfl
        intro a' _
        rw [h2]
      · rw [if_neg]
        · have : ∑ a' ∈ Finset.range (s.dim bl), s.elem (entry t) b a bl a' * st (s.flat bl a') = 0 :=
            Finset.sum_eq_zero fun a' _ => by rw [h3 b hlb hbb, zero_mul]
          rw [this, mul_zero, zero_add]
        · unfold Sys.flat
          rcases lt_or_gt_of_ne hbb with h | h
          · have := first_mono s b b' h; omega
          · have := first_mono s b' b h; omega

/-- **C90.** `act` computes the components of the image of the vector in the eigenbasis. -/
theorem C90_act (s : Sys F K) (hb : s.Blocks) (st : ℕ → K) (op : List (K × Mono K)) (hop : ∀ e ∈ op, ∀ b < s.n, s.OneBlock e.2 b) :
    ∀ res, ∃ r, s.act st op res = some r ∧ ∀ b < s.n, ∀ a < s.dim b, r (s.flat b a) = res (s.flat b a) +
      ∑ bl ∈ Finset.range s.n, ∑ a' ∈ Finset.range (s.dim bl), s.elem (combEntry op) b a bl a' * st (s.flat bl a') := by
  induction op with
  | nil =>
    intro res
    refine ⟨res, rfl, fun b _ a _ => ?_⟩
    simp only [elem_comb_nil, zero_mul, Finset.sum_const_zero, add_zero]
  | cons e op ih =>
    intro res
    obtain ⟨r1, h1, h2⟩ := actBlocks_spec s hb e.1 e.2 st (hop e (by simp)) (List.range s.n) res (fun b h => List.mem_range.mp h)
    obtain ⟨r, h3, h4⟩ := ih (fun e' he' => hop e' (by simp [he'])) r1
    refine ⟨r, by rw [Sys.act, h1]; exact h3, fun b hlb a ha => ?_⟩
    rw [h4 b hlb a ha, h2 b hlb a ha, add_assoc]
    congr 1
    rw [show ((List.range s.n).map fun bl => e.1 * ∑ a' ∈ Finset.range (s.dim bl), s.elem (entry e.2) b a bl a' * st (s.flat bl a')).sum =
      ∑ bl ∈ Finset.range s.n, e.1 * ∑ a' ∈ Finset.range (s.dim bl), s.elem (entry e.2) b a bl a' * st (s.flat bl a') from rfl, ← Finset.sum_add_distrib]
    apply Finset.sum_congr rfl
    intro bl _
    rw [Finset.mul_sum, ← Finset.sum_add_distrib]
    apply Finset.sum_congr rfl
    intro a' _
    rw [elem_comb_cons]
    ring

/-- completeness of the eigenstates: products of operators -/
theorem elem_mul (s : Sys F K) (hu : s.Unitary) (A B C : ℕ → ℕ → K)
    (hC : ∀ b < s.n, ∀ j < s.dim b, ∀ b' < s.n, ∀ i < s.dim b', C ((s.sp b).getD j 0) ((s.sp b').getD i 0) =
      ∑ c ∈ Finset.range s.n, ∑ k ∈ Finset.range (s.dim c), A ((s.sp b).getD j 0) ((s.sp c).getD k 0) * B ((s.sp c).getD k 0) ((s.sp b').getD i 0))
    (b a b' a' : ℕ) (hb : b < s.n) (hb' : b' < s.n) :
    ∑ c ∈ Finset.range s.n, ∑ d ∈ Finset.range (s.dim c), s.elem A b a c d * s.elem B c d b' a' = s.elem C b a b' a' := by
  have step : ∀ c ∈ Finset.range s.n, ∑ d ∈ Finset.range (s.dim c), s.elem A b a c d * s.elem B c d b' a' =
      ∑ j ∈ Finset.range (s.dim b), ∑ i ∈ Finset.range (s.dim b'), ∑ k ∈ Finset.range (s.dim c),
        star (s.U b j a) * (A ((s.sp b).getD j 0) ((s.sp c).getD k 0) * B ((s.sp c).getD k 0) ((s.sp b').getD i 0)) * s.U b' i a' := by
    intro c hc
    have hc' := Finset.mem_range.mp hc
    unfold Sys.elem
    have e1 : ∀ d, (∑ j ∈ Finset.range (s.dim b), ∑ k ∈ Finset.range (s.dim c), star (s.U b j a) * A ((s.sp b).getD j 0) ((s.sp c).getD k 0) * s.U c k d) *
        (∑ k' ∈ Finset.range (s.dim c), ∑ i ∈ Finset.range (s.dim b'), star (s.U c k' d) * B ((s.sp c).getD k' 0) ((s.sp b').getD i 0) * s.U b' i a') =
        ∑ j ∈ Finset.range (s.dim b), ∑ i ∈ Finset.range (s.dim b'), ∑ k ∈ Finset.range (s.dim c), ∑ k' ∈ Finset.range (s.dim c),
          star (s.U b j a) * (A ((s.sp b).getD j 0) ((s.sp c).getD k 0) * B ((s.sp c).getD k' 0) ((s.sp b').getD i 0)) * s.U b' i a' * (s.U c k d * star (s.U c k' d)) := by
      intro d
      rw [Finset.sum_mul]
      apply Finset.sum_congr rfl
      intro j _
      rw [Finset.sum_mul]
      conv_rhs => rw [Finset.sum_comm]
      apply Finset.sum_congr rfl
      intro k _
      rw [Finset.mul_sum]
      conv_rhs => rw [Finset.sum_comm]
      apply Finset.sum_congr rfl
      intro k' _
      rw [Finset.mul_sum]
      apply Finset.sum_congr rfl
      intro i _
      ring
    rw [Finset.sum_congr rfl fun d _ => e1 d, Finset.sum_comm]
    apply Finset.sum_congr rfl
    intro j _
    rw [Finset.sum_comm]
    apply Finset.sum_congr rfl
    intro i _
    rw [Finset.sum_comm]
    apply Finset.sum_congr rfl
    intro k hk
    rw [Finset.sum_comm, Finset.sum_eq_single k]
    · rw [← Finset.mul_sum, hu.rows c hc' k (Finset.mem_range.mp hk) k (Finset.mem_range.mp hk), if_pos rfl, mul_one]
    · intro k' hk' hne
      rw [← Finset.mul_sum, hu.rows c hc' k (Finset.mem_range.mp hk) k' (Finset.mem_range.mp hk'), if_neg (fun h => hne h.symm), mul_zero]
    · intro h; exact absurd hk h
  rw [Finset.sum_congr rfl step]
  unfold Sys.elem
  rw [Finset.sum_comm]
  apply Finset.sum_congr rfl
  intro j hj
  rw [Finset.sum_comm]
  apply Finset.sum_congr rfl
  intro i hi
  rw [hC b hb j (Finset.mem_range.mp hj) b' hb' i (Finset.mem_range.mp hi), Finset.mul_sum, Finset.sum_mul]
  apply Finset.sum_congr rfl
  intro c _
  rw [Finset.mul_sum, Finset.sum_mul]

/-- **C90, representation.** Acting with one operator after the other is acting with the product: `op12` is any operator whose matrix
between Fock states is the product of the matrices, with all intermediate states in the blocks. -/
theorem C90_representation (s : Sys F K) (hb : s.Blocks) (hu : s.Unitary) (op1 op2 op12 : List (K × Mono K))
    (h1 : ∀ e ∈ op1, ∀ b < s.n, s.OneBlock e.2 b) (h2 : ∀ e ∈ op2, ∀ b < s.n, s.OneBlock e.2 b) (h12 : ∀ e ∈ op12, ∀ b < s.n, s.OneBlock e.2 b)
    (hprod : ∀ b < s.n, ∀ j < s.dim b, ∀ b' < s.n, ∀ i < s.dim b', combEntry op12 ((s.sp b).getD j 0) ((s.sp b').getD i 0) =
      ∑ c ∈ Finset.range s.n, ∑ k ∈ Finset.range (s.dim c), combEntry op1 ((s.sp b).getD j 0) ((s.sp c).getD k 0) * combEntry op2 ((s.sp c).getD k 0) ((s.sp b').getD i 0))
    (v : ℕ → K) : ∃ w w1 w12, s.act v op2 (fun _ => 0) = some w ∧ s.act w op1 (fun _ => 0) = some w1 ∧ s.act v op12 (fun _ => 0) = some w12 ∧
      ∀ b < s.n, ∀ a < s.dim b, w1 (s.flat b a) = w12 (s.flat b a) := by
  obtain ⟨w, k1, k2⟩ := C90_act s hb v op2 h2 (fun _ => 0)
  obtain ⟨w1, k3, k4⟩ := C90_act s hb w op1 h1 (fun _ => 0)
  obtain ⟨w12, k5, k6⟩ := C90_act s hb v op12 h12 (fun _ => 0)
  refine ⟨w, w1, w12, k1, k3, k5, fun b hlb a ha => ?_⟩
  rw [k4 b hlb a ha, k6 b hlb a ha, zero_add, zero_add]
  have e1 : ∀ c ∈ Finset.range s.n, ∑ d ∈ Finset.range (s.dim c), s.elem (combEntry op1) b a c d * w (s.flat c d) =
      ∑ b' ∈ Finset.range s.n, ∑ a' ∈ Finset.range (s.dim b'), (∑ d ∈ Finset.range (s.dim c), s.elem (combEntry op1) b a c d * s.elem (combEntry op2) c d b' a') * v (s.flat b' a') := by
    intro c hc
    rw [Finset.sum_congr rfl fun d hd => by rw [k2 c (Finset.mem_range.mp hc) d (Finset.mem_range.mp hd), zero_add, Finset.mul_sum]]
    rw [Finset.sum_comm]
    apply Finset.sum_congr rfl
    intro b' _
    rw [Finset.sum_congr rfl fun d _ => Finset.mul_sum _ _ _, Finset.sum_comm]
    apply Finset.sum_congr rfl
    intro a' _
    rw [Finset.sum_mul]
    apply Finset.sum_congr rfl
    intro d _
    ring
  rw [Finset.sum_congr rfl e1, Finset.sum_comm]
  apply Finset.sum_congr rfl
  intro b' hb'
  rw [Finset.sum_comm]
  apply Finset.sum_congr rfl
  intro a' _
  rw [← Finset.sum_mul, elem_mul s hu _ _ _ hprod b a b' a' hlb (Finset.mem_range.mp hb')]

/-! ### Vacuum -/

/-- **C89, vacuum.** When the states of the blocks are in ascending order and one of the blocks has the vacuum, the stored vector
has the components of the vacuum in the eigenbasis, and an operator that annihilates the vacuum annihilates the vector. -/
theorem C89_vacuum (s : Sys F K) (hb : s.Blocks) (hu : s.Unitary) (hs : ∀ b < s.n, (s.sp b).Pairwise (· < ·)) (b0 : ℕ) (hb0 : b0 < s.n) (h0 : 0 ∈ s.sp b0) :
    s.vacuum.1 = some b0 ∧
    (∀ b < s.n, ∀ a < s.dim b, s.vacuum.2 (s.flat b a) = ∑ j ∈ Finset.range (s.dim b), star (s.U b j a) * if (s.sp b).getD j 0 = 0 then 1 else 0) ∧
    ∀ (op : List (K × Mono K)), (∀ e ∈ op, ∀ b < s.n, s.OneBlock e.2 b) → (∀ e ∈ op, e.2 0 = none) →
      ∃ r, s.act s.vacuum.2 op (fun _ => 0) = some r ∧ ∀ b < s.n, ∀ a < s.dim b, r (s.flat b a) = 0 := by
  have hf := (findBlock_spec s hb 0).1 b0 hb0 h0
  have hpos : 0 < s.dim b0 := List.length_pos_of_mem h0
  have hfst : (s.sp b0).getD 0 0 = 0 := by
    obtain ⟨k, hk, he⟩ := List.mem_iff_getElem.mp h0
    rw [List.getD_eq_getElem?_getD, List.getElem?_eq_getElem hpos]
    rcases Nat.eq_zero_or_pos k with h | h
    · subst h; exact he
    · have := List.pairwise_iff_getElem.mp (hs b0 hb0) 0 k hpos hk h
      omega
  have hval : ∀ b < s.n, ∀ a < s.dim b, s.vacuum.2 (s.flat b a) = ∑ j ∈ Finset.range (s.dim b), star (s.U b j a) * if (s.sp b).getD j 0 = 0 then 1 else 0 := by
    intro b hlb a ha
    unfold Sys.vacuum
    rw [hf]
    simp only
    by_cases hbb : b = b0
    · subst hbb
      rw [if_pos (by unfold Sys.flat; omega), show s.flat b a - s.first b = a by unfold Sys.flat; omega, Finset.sum_eq_single 0]
      · rw [if_pos hfst, mul_one]
      · intro j hj hne
        rw [if_neg, mul_zero]
        intro h
        have h1 := idxOf_getD (hb.nodup b hlb) (Finset.mem_range.mp hj)
        have h2 := idxOf_getD (hb.nodup b hlb) hpos
        rw [h] at h1
        rw [hfst] at h2
        omega
      · intro h; exact absurd (Finset.mem_range.mpr hpos) h
    · rw [if_neg]
      · symm
        apply Finset.sum_eq_zero
        intro j hj
        rw [if_neg, mul_zero]
        intro h
        exact hbb (hb.disjoint b hlb b0 hb0 0 (by rw [← h]; exact getD_mem (Finset.mem_range.mp hj)) h0)
      · unfold Sys.flat
        rcases lt_or_gt_of_ne hbb with h | h
        · have := first_mono s b b0 h; omega
        · have := first_mono s b0 b h; omega
  refine ⟨by unfold Sys.vacuum; rw [hf], hval, fun op hop hz => ?_⟩
  obtain ⟨r, h1, h2⟩ := C90_act s hb s.vacuum.2 op hop (fun _ => 0)
  refine ⟨r, h1, fun b hlb a ha => ?_⟩
  rw [h2 b hlb a ha, zero_add]
  have hcomb : ∀ f, combEntry op f 0 = 0 := by
    intro f
    unfold combEntry
    apply List.sum_eq_zero
    intro x hx
    obtain ⟨e, he, rfl⟩ := List.mem_map.mp hx
    simp only [entry, hz e he, mul_zero]
  apply Finset.sum_eq_zero
  intro bl hbl
  have hbl' := Finset.mem_range.mp hbl
  unfold Sys.elem
  calc ∑ a' ∈ Finset.range (s.dim bl), (∑ j ∈ Finset.range (s.dim b), ∑ i ∈ Finset.range (s.dim bl),
          star (s.U b j a) * combEntry op ((s.sp b).getD j 0) ((s.sp bl).getD i 0) * s.U bl i a') * s.vacuum.2 (s.flat bl a')
      = ∑ a' ∈ Finset.range (s.dim bl), ∑ j ∈ Finset.range (s.dim b), ∑ i ∈ Finset.range (s.dim bl), ∑ k ∈ Finset.range (s.dim bl),
          star (s.U b j a) * combEntry op ((s.sp b).getD j 0) ((s.sp bl).getD i 0) * (if (s.sp bl).getD k 0 = 0 then 1 else 0) * (s.U bl i a' * star (s.U bl k a')) := by
        apply Finset.sum_congr rfl
        intro a' ha'
        rw [hval bl hbl' a' (Finset.mem_range.mp ha'), Finset.sum_mul]
        apply Finset.sum_congr rfl
        intro j _
        rw [Finset.sum_mul]
        apply Finset.sum_congr rfl
        intro i _
        rw [Finset.mul_sum]
        apply Finset.sum_congr rfl
        intro k _
        ring
    _ = ∑ j ∈ Finset.range (s.dim b), ∑ i ∈ Finset.range (s.dim bl), ∑ k ∈ Finset.range (s.dim bl),
          star (s.U b j a) * combEntry op ((s.sp b).getD j 0) ((s.sp bl).getD i 0) * (if (s.sp bl).getD k 0 = 0 then 1 else 0) * if i = k then 1 else 0 := by
        rw [Finset.sum_comm]
        apply Finset.sum_congr rfl
        intro j _
        rw [Finset.sum_comm]
        apply Finset.sum_congr rfl
        intro i hi
        rw [Finset.sum_comm]
        apply Finset.sum_congr rfl
        intro k hk
        rw [← Finset.mul_sum, hu.rows bl hbl' i (Finset.mem_range.mp hi) k (Finset.mem_range.mp hk)]
    _ = 0 := by
        apply Finset.sum_eq_zero
        intro j _
        apply Finset.sum_eq_zero
        intro i _
        apply Finset.sum_eq_zero
        intro k _
        by_cases hik : i = k
        · subst hik
          by_cases hz : (s.sp bl).getD i 0 = 0
          · rw [hz, hcomb]; ring
          · rw [if_neg hz]; ring
        · rw [if_neg hik, mul_zero]

/-- **C89, no vacuum.** When the particle number filter removes the vacuum the number of its block is not initialised. -/
theorem C89_no_vacuum (s : Sys F K) (hb : s.Blocks) (h : ∀ b < s.n, 0 ∉ s.sp b) : s.vacuum.1 = none := by
  unfold Sys.vacuum
  rw [(findBlock_spec s hb 0).2 h]

end

/-! ### Examples -/

/-- two orbitals with blocks by particle number; eigenvectors of `[[0, 12], [12, 7]]` -/
def exSys : Sys ℚ ℚ where
  spaces := [[1, 2], [0], [3]]
  E := fun b a => (([[0, 25], [9], [16]] : List (List ℚ)).getD b []).getD a 0
  U := fun b j a => if b = 0 then (if j = 0 then (if a = 0 then 4 / 5 else 3 / 5) else (if a = 0 then -3 / 5 else 4 / 5)) else 1
  gs := -9
  crea := fun _ b => if b = 1 then some 0 else if b = 0 then some 2 else none
  anni := fun _ b => if b = 2 then some 0 else if b = 0 then some 1 else none

/-- `c_0` and `c†_1` -/
def exC0 : Mono ℚ := fun i => if i = 1 then some (0, 1) else if i = 3 then some (2, 1) else none
def exD1 : Mono ℚ := fun i => if i = 0 then some (2, 1) else if i = 1 then some (3, -1) else none

theorem exSys_blocks : exSys.Blocks where
  nodup := by
    intro b hb
    have : b < 3 := hb
    interval_cases b <;> decide
  disjoint := by
    intro b hb b' hb' f hf hf'
    have : b < 3 := hb
    have : b' < 3 := hb'
    interval_cases b <;> interval_cases b' <;> simp_all [exSys, Sys.sp] <;> omega

theorem exSys_unitary : exSys.Unitary where
  columns := by
    intro b hb
    have : b < 3 := hb
    interval_cases b <;> decide +kernel
  rows := by
    intro b hb
    have : b < 3 := hb
    interval_cases b <;> decide +kernel

theorem exC0_oneBlock : ∀ b < exSys.n, exSys.OneBlock exC0 b := by
  intro b hb
  have : b < 3 := hb
  interval_cases b
  · exact ⟨1, by decide, by intro i hi f x h; left; simp [exSys, Sys.sp] at hi; rcases hi with rfl | rfl <;> simp [exC0] at h; simp [exSys, Sys.sp, h.1.symm]⟩
  · exact ⟨1, by decide, by intro i hi f x h; simp [exSys, Sys.sp] at hi; subst hi; simp [exC0] at h⟩
  · exact ⟨0, by decide, by intro i hi f x h; left; simp [exSys, Sys.sp] at hi; subst hi; simp [exC0] at h; simp [exSys, Sys.sp, h.1.symm]⟩

/-- the matrix of `c_0` from block `{1, 2}` to the vacuum: the first row of the matrix of eigenvectors -/
example : (match exSys.matrixElement exC0 0 with
    | .ok (some (b, m)) => some (b, [m 0 0, m 0 1])
    | _ => none) = some (1, [4 / 5, 3 / 5]) := by decide +kernel

/-- `c†_1` on the vacuum -/
example : exSys.vacuum.1 = some 1 ∧ (exSys.act exSys.vacuum.2 [(2, exD1)] (fun _ => 0)).map (fun v => [v 0, v 1, v 2, v 3]) = some [-6 / 5, 8 / 5, 0, 0] := by
  decide +kernel

/-- the hypotheses of the theorems hold: `c_0` annihilates the vacuum of the example -/
example : ∃ r, exSys.act exSys.vacuum.2 [(1, exC0)] (fun _ => 0) = some r ∧ ∀ b < exSys.n, ∀ a < exSys.dim b, r (exSys.flat b a) = 0 :=
  (C89_vacuum exSys exSys_blocks exSys_unitary (by intro b hb; have : b < 3 := hb; interval_cases b <;> decide) 1 (by decide) (by decide)).2.2
    [(1, exC0)] (by simpa using exC0_oneBlock) (by simp [exC0])

/-- with the environment variable the example runs into `eigensystems[-1]` -/
example : (match exSys.opMat true (fun _ _ _ => false) [(1, exC0)] 1 with | .undef => true | _ => false) = true := by decide +kernel

/-- `get_op_mat` throws for `c_0 + c†_1`, whose monomials connect different blocks -/
example : (match exSys.opMat false (fun _ _ _ => false) [(1, exC0), (1, exD1)] 0 with | .exn => true | _ => false) = true := by decide +kernel

end Verif.Diag
