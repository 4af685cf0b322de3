import Mathlib.Algebra.Algebra.Basic
import Mathlib.Algebra.BigOperators.Group.Finset.Basic
import Mathlib.Algebra.Field.Rat
import Mathlib.Algebra.Order.Field.Basic
import Mathlib.Algebra.Order.Ring.Rat
import Mathlib.Algebra.Star.Basic
import Mathlib.Data.List.Sort
import Mathlib.Data.Finset.Range
import Mathlib.Algebra.BigOperators.Ring.Finset
import Mathlib.Algebra.Star.Rat
import Mathlib.Tactic.IntervalCases
import Mathlib.Tactic.Linarith
import Mathlib.Tactic.Ring

/-!
# Model of the diagonalisation of the blocks in atom_diag

Source: `/repo/c++/triqs/atom_diag/impl/worker.cpp:281-345` (first part of `complete`).

Simplifications: `double` is an exact number; a monomial with its coefficient is the function that gives the image of a Fock
state and its amplitude (what `imperative_operator` does with one term, C13); the solver `linalg::eigenelements` of the array
library is an arbitrary function of the dimension and of the matrix, the theorems assume what `EigSpec` says. `-1` in the
connection tables is `none`.
-/

namespace Verif.Diag

/-! ## Model -/

/-- image of a Fock state under a monomial, with amplitude; `none`: the monomial annihilates the state -/
abbrev Mono (K : Type) := ℕ → Option (ℕ × K)

section
variable {F K : Type} [Field F] [LinearOrder F] [CommRing K]

/-- the loop over the states of a dense vector in a subspace for one term, imperative_operator.hpp:216-227: `js` are the
indices left. `none`: `get_state_index` of a state outside of the subspace, hilbert_space.hpp:211. -/
def applyTerm (sp : List ℕ) (t : Mono K) (amp : ℕ → K) : List ℕ → (ℕ → K) → Option (ℕ → K)
  | [], tgt => some tgt
  | j :: js, tgt => match t (sp.getD j 0) with
    | none => applyTerm sp t amp js tgt
    | some (f, x) =>
      if f ∈ sp then applyTerm sp t amp js (Function.update tgt (sp.idxOf f) (tgt (sp.idxOf f) + amp j * x)) else none

/-- `hamiltonian(i_state)`, imperative_operator.hpp:207-230 -/
def applyOp (sp : List ℕ) (amp : ℕ → K) : List (Mono K) → (ℕ → K) → Option (ℕ → K)
  | [], tgt => some tgt
  | t :: ts, tgt => match applyTerm sp t amp (List.range sp.length) tgt with
    | none => none
    | some tgt' => applyOp sp amp ts tgt'

/-- the column `i` of `h_matrix`, worker.cpp:303-308 -/
def hColumn (terms : List (Mono K)) (sp : List ℕ) (i : ℕ) : Option (ℕ → K) :=
  applyOp sp (fun j => if j = i then 1 else 0) terms (fun _ => 0)

/-- `h_matrix(j, i)`, where all columns are defined -/
def hMatrix (terms : List (Mono K)) (sp : List ℕ) (j i : ℕ) : K := ((hColumn terms sp i).getD fun _ => 0) j

/-- all columns are defined -/
def hDefined (terms : List (Mono K)) (sp : List ℕ) : Bool := (List.range sp.length).all fun i => (hColumn terms sp i).isSome

/-- `linalg::eigenelements`: dimension, matrix; eigenvalues and matrix of eigenvectors -/
abbrev Eig (F K : Type) := ℕ → (ℕ → ℕ → K) → (ℕ → F) × (ℕ → ℕ → K)

/-- order of the keys `(minimal energy + split * number, number)` of `eign_map`, worker.cpp:294-295, 315 -/
def keyLe (key : ℕ → F) (a b : ℕ) : Bool := decide (key a < key b) || (decide (key a = key b) && decide (a ≤ b))

/-- order in which the blocks are visited, worker.cpp:323 -/
def order (key : ℕ → F) (n : ℕ) : List ℕ := (List.range n).insertionSort (fun a b => keyLe key a b = true)

/-- `remap_connection`, worker.cpp:331-335, one row of the table -/
def remapConn (ord : List ℕ) (c2 : ℕ → Option ℕ) : ℕ → Option ℕ :=
  (List.range ord.length).foldl (fun c i => Function.update c (ord.idxOf i) ((c2 i).map ord.idxOf)) c2

/-- the members set by `complete` -/
structure Sys (F K : Type) where
  spaces : List (List ℕ)
  E : ℕ → ℕ → F
  U : ℕ → ℕ → ℕ → K
  gs : F
  crea : ℕ → ℕ → Option ℕ
  anni : ℕ → ℕ → Option ℕ

/-- `gs_energy`, worker.cpp:291, 313; without blocks it is infinite in the code -/
def gsEnergy (e0 : ℕ → F) : ℕ → F
  | 0 => 0
  | 1 => e0 0
  | n + 2 => min (gsEnergy e0 (n + 1)) (e0 (n + 1))

/-- `complete`, worker.cpp:281-345; `split` is `energy_split`. `none`: undefined behaviour. -/
def complete (eig : Eig F K) (split : F) (terms : List (Mono K)) (spaces : List (List ℕ)) (crea anni : ℕ → ℕ → Option ℕ) : Option (Sys F K) :=
  if (spaces.all fun sp => hDefined terms sp) = false then none
  else
    let es := fun b => eig (spaces.getD b []).length (hMatrix terms (spaces.getD b []))
    let ord := order (fun b => (es b).1 0 + split * (b : F)) spaces.length
    let gs := gsEnergy (fun b => (es b).1 0) spaces.length
    some { spaces := ord.map fun b => spaces.getD b []
           E := fun i a => (es (ord.getD i 0)).1 a - gs
           U := fun i => (es (ord.getD i 0)).2
           gs := gs
           crea := fun n => remapConn ord (crea n)
           anni := fun n => remapConn ord (anni n) }

end

/-! ## Specification -/

section
variable {F K : Type} [Field F] [LinearOrder F] [CommRing K] [StarRing K] [Algebra F K]

/-- matrix element of a monomial between Fock states -/
def entry (t : Mono K) (f i : ℕ) : K := match t i with
  | none => 0
  | some (f', x) => if f' = f then x else 0

/-- matrix element of a sum of monomials -/
def opEntry (terms : List (Mono K)) (f i : ℕ) : K := (terms.map fun t => entry t f i).sum

/-- every monomial maps the states of the block to states of the block -/
def Stable (terms : List (Mono K)) (sp : List ℕ) : Prop := ∀ t ∈ terms, ∀ s ∈ sp, ∀ f x, t s = some (f, x) → f ∈ sp

/-- `(e, u)` diagonalises the `n x n` matrix `h`, eigenvalues in ascending order -/
structure Diagonalises (n : ℕ) (h : ℕ → ℕ → K) (e : ℕ → F) (u : ℕ → ℕ → K) : Prop where
  ascending : ∀ a b, a ≤ b → b < n → e a ≤ e b
  columns : ∀ a < n, ∀ b < n, ∑ j ∈ Finset.range n, star (u j a) * u j b = if a = b then 1 else 0
  rows : ∀ j < n, ∀ k < n, ∑ a ∈ Finset.range n, u j a * star (u k a) = if j = k then 1 else 0
  spectral : ∀ j < n, ∀ k < n, h j k = ∑ a ∈ Finset.range n, u j a * algebraMap F K (e a) * star (u k a)

/-- what is assumed of the solver: it diagonalises hermitian matrices -/
def EigSpec (eig : Eig F K) : Prop :=
  ∀ n h, (∀ j < n, ∀ k < n, h j k = star (h k j)) → Diagonalises n h (eig n h).1 (eig n h).2

end

/-! ## Proofs -/

section
variable {F K : Type} [Field F] [LinearOrder F] [CommRing K]

theorem applyTerm_none (sp : List ℕ) (t : Mono K) (amp : ℕ → K) (s : ℕ) (f : ℕ) (x : K) (h : t s = some (f, x)) (hf : f ∉ sp) :
    ∀ (js : List ℕ) (tgt : ℕ → K), (∃ j ∈ js, sp.getD j 0 = s) → applyTerm sp t amp js tgt = none := by
  intro js
  induction js with
  | nil => rintro tgt ⟨j, hj, _⟩; cases hj
  | cons j js ih =>
    rintro tgt ⟨k, hk, hks⟩
    unfold applyTerm
    rcases List.mem_cons.mp hk with rfl | hk
    · rw [hks, h]
      simp [hf]
    · split
      · exact ih _ ⟨k, hk, hks⟩
      · split
        · exact ih _ ⟨k, hk, hks⟩
        · rfl

theorem applyTerm_some (sp : List ℕ) (t : Mono K) (amp : ℕ → K) (hst : ∀ s ∈ sp, ∀ f x, t s = some (f, x) → f ∈ sp) :
    ∀ (js : List ℕ) (tgt : ℕ → K), (∀ j ∈ js, j < sp.length) →
      ∃ r, applyTerm sp t amp js tgt = some r ∧
        ∀ k (hk : k < sp.length), sp.Nodup → r k = tgt k + (js.map fun j => amp j * entry t sp[k] (sp.getD j 0)).sum := by
  intro js
  induction js with
  | nil => intro tgt _; exact ⟨tgt, rfl, fun k hk _ => by simp⟩
  | cons j js ih =>
    intro tgt hj
    have hjl : j < sp.length := hj j (by simp)
    have hmem : sp.getD j 0 ∈ sp := by
      rw [List.getD_eq_getElem?_getD, List.getElem?_eq_getElem hjl]; exact List.getElem_mem hjl
    unfold applyTerm
    cases ht : t (sp.getD j 0) with
    | none =>
      obtain ⟨r, h1, h2⟩ := ih tgt (fun j' hj' => hj j' (by simp [hj']))
      refine ⟨r, h1, fun k hk hn => ?_⟩
      rw [h2 k hk hn, List.map_cons, List.sum_cons]
      simp only [entry, ht]
      simp
    | some p =>
      obtain ⟨f, x⟩ := p
      have hf := hst _ hmem f x ht
      simp only [hf, if_true]
      obtain ⟨r, h1, h2⟩ := ih (Function.update tgt (sp.idxOf f) (tgt (sp.idxOf f) + amp j * x)) (fun j' hj' => hj j' (by simp [hj']))
      refine ⟨r, h1, fun k hk hn => ?_⟩
      rw [h2 k hk hn, List.map_cons, List.sum_cons]
      have e1 : entry t sp[k] (sp.getD j 0) = if sp.idxOf f = k then x else 0 := by
        simp only [entry, ht]
        by_cases he : f = sp[k]
        · rw [if_pos he, if_pos (by rw [he, List.Nodup.idxOf_getElem hn])]
        · rw [if_neg he, if_neg]
          intro hk'
          apply he
          subst hk'
          exact (List.getElem_idxOf hk).symm
      rw [e1, Function.update_apply]
      by_cases hk' : k = sp.idxOf f
      · subst hk'
        simp only [if_true]; ring
      · rw [if_neg hk', if_neg (fun h => hk' h.symm)]; ring

theorem applyOp_none (sp : List ℕ) (amp : ℕ → K) (terms : List (Mono K)) (h : ¬ Stable terms sp) : ∀ tgt, applyOp sp amp terms tgt = none := by
  induction terms with
  | nil => exact absurd (fun t ht => by cases ht) h
  | cons t ts ih =>
    intro tgt
    unfold applyOp
    cases ht : applyTerm sp t amp (List.range sp.length) tgt with
    | none => rfl
    | some tgt' =>
      simp only
      apply ih
      intro hs
      apply h
      intro t' ht' s hs' f x hx
      rcases List.mem_cons.mp ht' with rfl | ht'
      · by_contra hf
        obtain ⟨j, hj, he⟩ := List.mem_iff_getElem.mp hs'
        rw [applyTerm_none sp t' amp s f x hx hf _ _ ⟨j, List.mem_range.mpr hj, by
          rw [List.getD_eq_getElem?_getD, List.getElem?_eq_getElem hj]; exact he⟩] at ht
        cases ht
      · exact hs t' ht' s hs' f x hx

theorem applyOp_some (sp : List ℕ) (hn : sp.Nodup) (amp : ℕ → K) (terms : List (Mono K)) (h : Stable terms sp) : ∀ tgt,
    ∃ r, applyOp sp amp terms tgt = some r ∧
      ∀ k (hk : k < sp.length), r k = tgt k + ((List.range sp.length).map fun j => amp j * opEntry terms sp[k] (sp.getD j 0)).sum := by
  induction terms with
  | nil => intro tgt; exact ⟨tgt, rfl, fun k hk => by simp [opEntry]⟩
  | cons t ts ih =>
    intro tgt
    obtain ⟨r1, h1, h2⟩ := applyTerm_some sp t amp (h t (by simp)) (List.range sp.length) tgt (fun j hj => List.mem_range.mp hj)
    obtain ⟨r, h3, h4⟩ := ih (fun t' ht' => h t' (by simp [ht'])) r1
    refine ⟨r, ?_, fun k hk => ?_⟩
    · unfold applyOp; rw [h1]; exact h3
    · rw [h4 k hk, h2 k hk hn, add_assoc, ← List.sum_map_add]
      congr 2
      apply List.map_congr_left
      intro j _
      simp only [opEntry, List.map_cons, List.sum_cons]
      ring

/-- the matrix of the Hamiltonian in a block: defined exactly when the block is stable (blocks are not empty), and its
elements are the matrix elements between the Fock states of the block -/
theorem hDefined_iff (terms : List (Mono K)) (sp : List ℕ) (hn : sp.Nodup) (h0 : sp ≠ []) : hDefined terms sp = true ↔ Stable terms sp := by
  unfold hDefined
  rw [List.all_eq_true]
  constructor
  · intro h
    by_contra hs
    have := h 0 (List.mem_range.mpr (List.length_pos_iff.mpr h0))
    unfold hColumn at this
    rw [applyOp_none sp _ terms hs] at this
    cases this
  · intro hs i _
    obtain ⟨r, h1, _⟩ := applyOp_some sp hn (fun j => if j = i then 1 else 0) terms hs (fun _ => 0)
    unfold hColumn
    rw [h1]; rfl

theorem hMatrix_eq (terms : List (Mono K)) (sp : List ℕ) (hn : sp.Nodup) (hs : Stable terms sp) (j i : ℕ) (hj : j < sp.length) (hi : i < sp.length) :
    hMatrix terms sp j i = opEntry terms (sp.getD j 0) (sp.getD i 0) := by
  obtain ⟨r, h1, h2⟩ := applyOp_some sp hn (fun j => if j = i then 1 else 0) terms hs (fun _ => 0)
  unfold hMatrix hColumn
  rw [h1, Option.getD_some, h2 j hj, zero_add]
  rw [show ((List.range sp.length).map fun j' => (if j' = i then (1 : K) else 0) * opEntry terms sp[j] (sp.getD j' 0)).sum =
    ∑ j' ∈ Finset.range sp.length, (if j' = i then (1 : K) else 0) * opEntry terms sp[j] (sp.getD j' 0) from rfl]
  rw [Finset.sum_eq_single i]
  · rw [if_pos rfl, one_mul, List.getD_eq_getElem?_getD, List.getD_eq_getElem?_getD, List.getElem?_eq_getElem hj]; rfl
  · intro b _ hb; rw [if_neg hb, zero_mul]
  · intro h; exact absurd (Finset.mem_range.mpr hi) h

theorem keyLe_total (key : ℕ → F) (a b : ℕ) : keyLe key a b = true ∨ keyLe key b a = true := by
  simp only [keyLe, Bool.or_eq_true, Bool.and_eq_true, decide_eq_true_eq]
  rcases lt_trichotomy (key a) (key b) with h | h | h
  · exact Or.inl (Or.inl h)
  · rcases Nat.le_total a b with h' | h'
    · exact Or.inl (Or.inr ⟨h, h'⟩)
    · exact Or.inr (Or.inr ⟨h.symm, h'⟩)
  · exact Or.inr (Or.inl h)

theorem keyLe_trans (key : ℕ → F) (a b c : ℕ) (h1 : keyLe key a b = true) (h2 : keyLe key b c = true) : keyLe key a c = true := by
  simp only [keyLe, Bool.or_eq_true, Bool.and_eq_true, decide_eq_true_eq] at *
  rcases h1 with h1 | ⟨h1, h1'⟩ <;> rcases h2 with h2 | ⟨h2, h2'⟩
  · exact Or.inl (h1.trans h2)
  · exact Or.inl (h2 ▸ h1)
  · exact Or.inl (h1 ▸ h2)
  · exact Or.inr ⟨h1.trans h2, h1'.trans h2'⟩

theorem keyLe_le {key : ℕ → F} {a b : ℕ} (h : keyLe key a b = true) : key a ≤ key b := by
  simp only [keyLe, Bool.or_eq_true, Bool.and_eq_true, decide_eq_true_eq] at h
  rcases h with h | ⟨h, _⟩
  · exact h.le
  · exact h.le

theorem order_perm (key : ℕ → F) (n : ℕ) : (order key n).Perm (List.range n) := List.perm_insertionSort _ _

theorem order_nodup (key : ℕ → F) (n : ℕ) : (order key n).Nodup := (order_perm key n).nodup_iff.mpr List.nodup_range

theorem order_length (key : ℕ → F) (n : ℕ) : (order key n).length = n := by rw [(order_perm key n).length_eq, List.length_range]

theorem order_sorted (key : ℕ → F) (n : ℕ) : (order key n).Pairwise fun a b => key a ≤ key b := by
  have : (order key n).Pairwise fun a b => keyLe key a b = true := by
    haveI : IsTrans ℕ (fun a b => keyLe key a b = true) := ⟨keyLe_trans key⟩
    haveI : Std.Total (fun a b => keyLe key a b = true) := ⟨keyLe_total key⟩
    exact List.pairwise_insertionSort _ _
  exact this.imp fun h => keyLe_le h

theorem remapConn_eq (ord : List ℕ) (hp : ord.Perm (List.range ord.length)) (c2 : ℕ → Option ℕ) (b : ℕ) (hb : b < ord.length) :
    remapConn ord c2 (ord.idxOf b) = (c2 b).map ord.idxOf := by
  have hmem : ∀ i, i < ord.length → i ∈ ord := fun i hi => hp.mem_iff.mpr (List.mem_range.mpr hi)
  have key : ∀ (l : List ℕ) (c : ℕ → Option ℕ), l.Nodup → (∀ i ∈ l, i < ord.length) →
      l.foldl (fun c i => Function.update c (ord.idxOf i) ((c2 i).map ord.idxOf)) c (ord.idxOf b) =
        if b ∈ l then (c2 b).map ord.idxOf else c (ord.idxOf b) := by
    intro l
    induction l with
    | nil => intro c _ _; simp
    | cons i l ih =>
      intro c hn hl
      rw [List.foldl_cons, ih _ (List.nodup_cons.mp hn).2 (fun j hj => hl j (by simp [hj]))]
      by_cases hbl : b ∈ l
      · simp [hbl]
      · rw [if_neg hbl]
        by_cases hbi : b = i
        · subst hbi; simp
        · rw [if_neg (by simp [hbl, hbi]), Function.update_of_ne]
          intro h
          apply hbi
          exact (List.idxOf_inj (hmem b hb)).mp h
  unfold remapConn
  rw [key _ _ List.nodup_range (fun i hi => List.mem_range.mp hi), if_pos (List.mem_range.mpr hb)]

variable [IsStrictOrderedRing F]

theorem gsEnergy_spec (e0 : ℕ → F) : ∀ n, 0 < n → (∀ b < n, gsEnergy e0 n ≤ e0 b) ∧ ∃ b < n, gsEnergy e0 n = e0 b := by
  intro n
  induction n with
  | zero => intro h; omega
  | succ n ih =>
    intro _
    rcases n with _ | n
    · exact ⟨fun b hb => by rw [show b = 0 by omega]; exact le_rfl, 0, by omega, rfl⟩
    · obtain ⟨h1, b, hb, h2⟩ := ih (by omega)
      unfold gsEnergy
      constructor
      · intro c hc
        by_cases h : c = n + 1
        · subst h; exact min_le_right _ _
        · exact (min_le_left _ _).trans (h1 c (by omega))
      · rcases le_total (gsEnergy e0 (n + 1)) (e0 (n + 1)) with h | h
        · exact ⟨b, by omega, by rw [min_eq_left h]; exact h2⟩
        · exact ⟨n + 1, by omega, by rw [min_eq_right h]⟩

end

section
variable {F K : Type} [Field F] [LinearOrder F] [IsStrictOrderedRing F] [CommRing K] [StarRing K] [Algebra F K]

/-- **C87.** For a hermitian Hamiltonian that leaves the blocks invariant: the blocks are reordered, and the eigensystem with
number `b` diagonalises the Hamiltonian, shifted by the ground state energy, in the Fock states of block `b`. All energies are
non-negative and one of them is zero. The minimal energies of the blocks ascend up to `split` times the number of blocks. An
entry of the connection tables still connects the same sets of Fock states. -/
theorem C87_complete (eig : Eig F K) (heig : EigSpec eig) (split : F) (hsp : 0 ≤ split) (terms : List (Mono K))
    (hH : ∀ f i, opEntry terms f i = star (opEntry terms i f)) (spaces : List (List ℕ)) (crea anni : ℕ → ℕ → Option ℕ)
    (hne : ∀ sp ∈ spaces, sp ≠ []) (hnd : ∀ sp ∈ spaces, sp.Nodup) (hst : ∀ sp ∈ spaces, Stable terms sp) (hdist : spaces.Nodup)
    (hcr : ∀ n b b', b < spaces.length → crea n b = some b' → b' < spaces.length) (han : ∀ n b b', b < spaces.length → anni n b = some b' → b' < spaces.length) :
    ∃ s, complete eig split terms spaces crea anni = some s ∧ s.spaces.Perm spaces ∧
      (∀ b (hb : b < s.spaces.length), Diagonalises (s.spaces[b]).length
        (fun j k => opEntry terms (s.spaces[b].getD j 0) (s.spaces[b].getD k 0) - if j = k then algebraMap F K s.gs else 0) (s.E b) (s.U b)) ∧
      (∀ b (hb : b < s.spaces.length), ∀ a < (s.spaces[b]).length, 0 ≤ s.E b a) ∧
      (spaces ≠ [] → ∃ b < s.spaces.length, s.E b 0 = 0) ∧
      (∀ b b', b ≤ b' → b' < s.spaces.length → s.E b 0 ≤ s.E b' 0 + split * spaces.length) ∧
      (∀ n b b' (hb : b < s.spaces.length), s.crea n b = some b' ↔
        ∃ c c', ∃ (hc : c < spaces.length) (hc' : c' < spaces.length) (hb' : b' < s.spaces.length),
          crea n c = some c' ∧ spaces[c] = s.spaces[b] ∧ spaces[c'] = s.spaces[b']) ∧
      (∀ n b b' (hb : b < s.spaces.length), s.anni n b = some b' ↔
        ∃ c c', ∃ (hc : c < spaces.length) (hc' : c' < spaces.length) (hb' : b' < s.spaces.length),
          anni n c = some c' ∧ spaces[c] = s.spaces[b] ∧ spaces[c'] = s.spaces[b']) := by
  have hdef : (spaces.all fun sp => hDefined terms sp) = true := by
    rw [List.all_eq_true]
    intro sp hs
    exact (hDefined_iff terms sp (hnd sp hs) (hne sp hs)).mpr (hst sp hs)
  set es := fun b => eig (spaces.getD b []).length (hMatrix terms (spaces.getD b [])) with hes
  set ord := order (fun b => (es b).1 0 + split * (b : F)) spaces.length with hord
  set gs := gsEnergy (fun b => (es b).1 0) spaces.length with hgs
  have hlen : ord.length = spaces.length := order_length _ _
  have hperm : ord.Perm (List.range spaces.length) := order_perm _ _
  have hon : ord.Nodup := order_nodup _ _
  have getsp : ∀ b (hb : b < spaces.length), spaces.getD b [] = spaces[b] := fun b hb => by
    rw [List.getD_eq_getElem?_getD, List.getElem?_eq_getElem hb]; rfl
  have getord : ∀ b (hb : b < ord.length), ord.getD b 0 = ord[b] := fun b hb => by
    rw [List.getD_eq_getElem?_getD, List.getElem?_eq_getElem hb]; rfl
  have ordlt : ∀ b (hb : b < ord.length), ord[b] < spaces.length := fun b hb =>
    List.mem_range.mp (hperm.mem_iff.mp (List.getElem_mem hb))
  have hdiag : ∀ c, c < spaces.length → Diagonalises (spaces.getD c []).length (hMatrix terms (spaces.getD c [])) (es c).1 (es c).2 := by
    intro c hc
    apply heig
    intro j hj k hk
    have hm : spaces.getD c [] ∈ spaces := by rw [getsp c hc]; exact List.getElem_mem hc
    rw [hMatrix_eq terms _ (hnd _ hm) (hst _ hm) j k hj hk, hMatrix_eq terms _ (hnd _ hm) (hst _ hm) k j hk hj]
    exact hH _ _
  have hpos : ∀ c, c < spaces.length → 0 < (spaces.getD c []).length := fun c hc => by
    rw [getsp c hc]; exact List.length_pos_iff.mpr (hne _ (List.getElem_mem hc))
  have hge : ∀ c, c < spaces.length → ∀ a < (spaces.getD c []).length, gs ≤ (es c).1 a := by
    intro c hc a ha
    exact ((gsEnergy_spec (fun b => (es b).1 0) spaces.length (by omega)).1 c hc).trans ((hdiag c hc).ascending 0 a (Nat.zero_le _) ha)
  have hconn : ∀ (tab : ℕ → Option ℕ), (∀ b b', b < spaces.length → tab b = some b' → b' < spaces.length) → ∀ b b' (hb : b < (ord.map fun b => spaces.getD b []).length),
      remapConn ord tab b = some b' ↔ ∃ c c', ∃ (hc : c < spaces.length) (hc' : c' < spaces.length) (hb' : b' < (ord.map fun b => spaces.getD b []).length),
          tab c = some c' ∧ spaces[c] = (ord.map fun b => spaces.getD b [])[b] ∧ spaces[c'] = (ord.map fun b => spaces.getD b [])[b'] := by
    intro tab htab b b' hb
    have hb0 : b < ord.length := by simpa using hb
    have e1 : remapConn ord tab b = (tab ord[b]).map ord.idxOf := by
      have := remapConn_eq ord (by rw [hlen]; exact hperm) tab ord[b] (by rw [hlen]; exact ordlt b hb0)
      rwa [List.Nodup.idxOf_getElem hon] at this
    rw [e1]
    constructor
    · intro h
      rw [Option.map_eq_some_iff] at h
      obtain ⟨c', h1, h2⟩ := h
      have hc' := htab _ _ (ordlt b hb0) h1
      have hmem : c' ∈ ord := hperm.mem_iff.mpr (List.mem_range.mpr hc')
      have hb' : b' < ord.length := by rw [← h2]; exact List.idxOf_lt_length_iff.mpr hmem
      refine ⟨ord[b], c', ordlt b hb0, hc', by simpa using hb', h1, ?_, ?_⟩
      · rw [List.getElem_map, getsp _ (ordlt b hb0)]
      · rw [List.getElem_map]
        have : ord[b'] = c' := by subst h2; exact List.getElem_idxOf _
        rw [getsp _ (ordlt b' hb')]
        simp only [this]
    · rintro ⟨c, c', hc, hc', hb', h1, h2, h3⟩
      have hb'0 : b' < ord.length := by simpa using hb'
      rw [List.getElem_map, getsp _ (ordlt b hb0), hdist.getElem_inj_iff] at h2
      rw [List.getElem_map, getsp _ (ordlt b' hb'0), hdist.getElem_inj_iff] at h3
      rw [← h2, h1, Option.map_some, h3, List.Nodup.idxOf_getElem hon]
  refine ⟨{ spaces := ord.map fun b => spaces.getD b []
            E := fun i a => (es (ord.getD i 0)).1 a - gs
            U := fun i => (es (ord.getD i 0)).2
            gs := gs
            crea := fun n => remapConn ord (crea n)
            anni := fun n => remapConn ord (anni n) }, ?_, ?_, ?_, ?_, ?_, ?_, ?_, ?_⟩
  · unfold complete
    rw [hdef]
    rfl
  · refine (hperm.map _).trans ?_
    have : (List.range spaces.length).map (fun b => spaces.getD b []) = spaces := by
      apply List.ext_getElem (by simp)
      intro b h1 h2
      rw [List.getElem_map, List.getElem_range, getsp b h2]
    rw [this]
  · intro b hb
    have hb0 : b < ord.length := by simpa using hb
    have hlt := ordlt b hb0
    have hd := hdiag _ hlt
    have hm : spaces.getD ord[b] [] ∈ spaces := by rw [getsp _ hlt]; exact List.getElem_mem hlt
    simp only [List.getElem_map, getord b hb0]
    refine ⟨fun a c hac hc => sub_le_sub_right (hd.ascending a c hac hc) _, hd.columns, hd.rows, fun j hj k hk => ?_⟩
    rw [← hMatrix_eq terms _ (hnd _ hm) (hst _ hm) j k hj hk, hd.spectral j hj k hk]
    have hr := hd.rows j hj k hk
    have : (if j = k then algebraMap F K gs else 0) = algebraMap F K gs * ∑ a ∈ Finset.range (spaces.getD ord[b] []).length, (es ord[b]).2 j a * star ((es ord[b]).2 k a) := by
      rw [hr]; split <;> simp
    rw [this, Finset.mul_sum, ← Finset.sum_sub_distrib]
    apply Finset.sum_congr rfl
    intro a _
    rw [map_sub]; ring
  · intro b hb a ha
    have hb0 : b < ord.length := by simpa using hb
    simp only [List.getElem_map] at ha
    simp only [getord b hb0]
    exact sub_nonneg.mpr (hge _ (ordlt b hb0) a ha)
  · intro h0
    obtain ⟨_, c, hc, h2⟩ := gsEnergy_spec (fun b => (es b).1 0) spaces.length (List.length_pos_iff.mpr h0)
    have hmem : c ∈ ord := hperm.mem_iff.mpr (List.mem_range.mpr hc)
    refine ⟨ord.idxOf c, by simpa using List.idxOf_lt_length_iff.mpr hmem, ?_⟩
    simp only [getord _ (List.idxOf_lt_length_iff.mpr hmem), List.getElem_idxOf]
    rw [← hgs] at h2
    rw [h2]; exact sub_self _
  · intro b b' hbb hb'
    have hb'0 : b' < ord.length := by simpa using hb'
    have hb0 : b < ord.length := by omega
    simp only [getord b hb0, getord b' hb'0]
    have h1 : (es ord[b]).1 0 + split * (ord[b] : F) ≤ (es ord[b']).1 0 + split * (ord[b'] : F) := by
      rcases Nat.eq_or_lt_of_le hbb with h | h
      · simp only [h]; exact le_rfl
      · exact (List.pairwise_iff_getElem.mp (order_sorted (fun b => (es b).1 0 + split * (b : F)) spaces.length)) b b' hb0 hb'0 h
    have h2 : split * (ord[b'] : F) ≤ split * (spaces.length : F) := by
      apply mul_le_mul_of_nonneg_left _ hsp
      exact_mod_cast (ordlt b' hb'0).le
    have h3 : 0 ≤ split * (ord[b] : F) := mul_nonneg hsp (Nat.cast_nonneg _)
    linarith
  · intro n b b' hb
    exact hconn (crea n) (hcr n) b b' hb
  · intro n b b' hb
    exact hconn (anni n) (han n) b b' hb

/-- **C87, no check of the blocks.** A Hamiltonian with a term that leaves a block is undefined behaviour, for any solver and whatever the other terms. -/
theorem C87_leaves_block (eig : Eig F K) (split : F) (terms : List (Mono K)) (spaces : List (List ℕ)) (crea anni : ℕ → ℕ → Option ℕ)
    (hne : ∀ sp ∈ spaces, sp ≠ []) (hnd : ∀ sp ∈ spaces, sp.Nodup) (sp : List ℕ) (hsp : sp ∈ spaces) (t : Mono K) (ht : t ∈ terms) (s f : ℕ) (x : K)
    (hs : s ∈ sp) (hf : t s = some (f, x)) (hout : f ∉ sp) : complete eig split terms spaces crea anni = none := by
  unfold complete
  rw [if_pos]
  rw [Bool.eq_false_iff, ne_eq, List.all_eq_true]
  intro h
  exact hout ((hDefined_iff terms sp (hnd sp hsp) (hne sp hsp)).mp (h sp hsp) t ht s hs f x hf)

end

/-! ### Examples -/

/-- solver for blocks of dimension one and for the block `[[0, 12], [12, 7]]` -/
def exEig : Eig ℚ ℚ := fun n h =>
  if n = 1 then (fun _ => h 0 0, fun _ _ => 1)
  else (fun a => if a = 0 then -9 else 16, fun j a => if j = 0 then (if a = 0 then 4 / 5 else 3 / 5) else (if a = 0 then -3 / 5 else 4 / 5))

/-- two orbitals, `7 n_1 + 12 (c†_0 c_1 + h.c.)` -/
def exH : List (Mono ℚ) :=
  [fun s => if s.testBit 1 then some (s, 7) else none,
   fun s => if s = 2 then some (1, 12) else none,
   fun s => if s = 1 then some (2, 12) else none]

/-- blocks by particle number: `{1, 2}` comes first, ground state energy `-9` -/
example : (complete exEig (1 / 10 ^ 10) exH [[0], [1, 2], [3]] (fun _ b => if b = 2 then none else some (b + 1)) (fun _ _ => none)).map
    (fun s => (s.spaces, s.gs, [s.E 0 0, s.E 0 1, s.E 1 0, s.E 2 0], [s.crea 0 0, s.crea 0 1, s.crea 0 2])) =
    some ([[1, 2], [0], [3]], -9, [0, 25, 9, 16], [some 2, some 0, none]) := by decide +kernel

/-- the eigenvectors of the example diagonalise the block -/
example : Diagonalises (F := ℚ) (K := ℚ) 2 (fun j k => opEntry exH ([1, 2].getD j 0) ([1, 2].getD k 0)) (exEig 2 fun _ _ => 0).1 (exEig 2 fun _ _ => 0).2 where
  ascending := by intro a b hab hb; interval_cases b <;> interval_cases a <;> decide +kernel
  columns := by intro a ha b hb; interval_cases a <;> interval_cases b <;> decide +kernel
  rows := by intro a ha b hb; interval_cases a <;> interval_cases b <;> decide +kernel
  spectral := by intro a ha b hb; interval_cases a <;> interval_cases b <;> decide +kernel

/-- **C87, order of the blocks.** Two blocks of one state with energies `10^{-11}` and `0` are not exchanged: the ground state is not
in the first block. -/
theorem C87_not_sorted : (complete exEig (1 / 10 ^ 10) [fun s => if s = 0 then some (0, 1 / 10 ^ 11) else none] [[0], [1]] (fun _ _ => none) (fun _ _ => none)).map
    (fun s => (s.spaces, s.E 0 0, s.E 1 0)) = some ([[0], [1]], 1 / 10 ^ 11, 0) := by decide +kernel

example : complete exEig (1 / 10 ^ 10) exH [[0], [1], [2], [3]] (fun _ _ => none) (fun _ _ => none) = none :=
  C87_leaves_block exEig _ exH _ _ _ (by decide) (by decide) [1] (by decide) _ (by simp [exH]; right; right; rfl) 1 2 12 (by decide) (by rfl) (by decide)

end Verif.Diag
