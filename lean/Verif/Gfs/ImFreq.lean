import Verif.Mesh.Matsubara
import Mathlib.Analysis.Complex.Basic
import Mathlib.Algebra.BigOperators.Group.Finset.Basic
import Mathlib.Tactic.LinearCombination
import Mathlib.Tactic.Linarith
import Mathlib.Tactic.FieldSimp
import Mathlib.NumberTheory.Zsqrtd.GaussianInt

/-!
# Properties C55, C56, C59, C82: symmetries of functions of Matsubara frequencies and imaginary time

Source: `/repo/c++/triqs/gfs/functions/imfreq.hpp`, `tail_eval` of `/repo/c++/triqs/mesh/tail_fitter.hpp`.

Simplifications: exact numbers, `int` and `long` unbounded. The data are a function of the data index
and of the list of target indices; accesses outside of `[0, len)` are undefined.
-/

namespace Verif.ImFreq
open Verif.Matsubara (Stat Mesh Freq)

/-! ## Model -/

/-- result, exception, or undefined behaviour -/
inductive Out (A : Type) where
  | ok (a : A)
  | exn
  | undef

/-- a Green function on an `imfreq` mesh: mesh, first extent and elements of the data, target shape -/
structure GF (K : Type) where
  mesh : Mesh
  len : ℤ
  shape : List ℕ
  dat : ℤ → List ℕ → K

/-- one assignment `new_data(i, ...) = v` -/
def setRow {K : Type} (len : ℤ) (a : Option (ℤ → Option (List ℕ → K))) (w : ℤ × (List ℕ → K)) : Option (ℤ → Option (List ℕ → K)) :=
  a.bind fun a => if 0 ≤ w.1 ∧ w.1 < len then some (fun i => if i = w.1 then some w.2 else a i) else none

/-- `make_gf_from_real_gf`, imfreq.hpp:32-48. Rows that are never assigned are `none`. -/
def makeFromReal {K : Type} [Star K] (g : GF K) : Out (Mesh × ℤ × List ℕ × (ℤ → Option (List ℕ → K))) :=
  if !g.mesh.positiveOnly then .exn
  else
    let isBoson : ℤ := if g.mesh.stat = .boson then 1 else 0
    let L := g.len
    let len := 2 * L - isBoson
    let L1 := if g.mesh.stat = .boson then L - 1 else L
    if g.mesh.stat = .boson ∧ L < 1 then .undef
    else
      let w0 := if g.mesh.stat = .boson then [(L - 1, g.dat 0)] else []
      let us : List ℤ := (List.range (L - isBoson).toNat).map (fun k : ℕ => isBoson + k)
      let ws := w0 ++ us.flatMap (fun u => [(L1 + u, g.dat u), (L - 1 - u, fun c => star (g.dat u c))])
      match ws.foldl (setRow len) (some (fun _ => none)) with
      | none => .undef
      | some a => .ok (Mesh.mk' g.mesh.beta g.mesh.stat L false, len, g.shape, a)

/-- `positive_freq_view`, imfreq.hpp:51-62; `undef`: the range is not inside the array -/
def positiveView {K : Type} (g : GF K) : Out (GF K) :=
  if g.mesh.positiveOnly then .ok g
  else
    let L := g.mesh.size
    let L1 := Int.tdiv (L + 1) 2
    let isBoson : ℤ := if g.mesh.stat = .boson then 1 else 0
    if 0 ≤ L1 - isBoson ∧ L ≤ g.len then
      .ok ⟨Mesh.mk' g.mesh.beta g.mesh.stat g.mesh.nIw true, L - (L1 - isBoson), g.shape, fun d => g.dat (L1 - isBoson + d)⟩
    else .undef

/-- index of `-w` -/
def negIdx (m : Mesh) (n : ℤ) : ℤ := (Freq.neg ⟨n, m.beta, m.stat⟩).n

/-- order of the target indices of the adjoint: `()`, `(j,i)`, `(k,l,i,j)` -/
def adj : List ℕ → List ℕ
  | [i, j] => [j, i]
  | [i, j, k, l] => [k, l, i, j]
  | c => c

/-- the indices are inside the shape -/
def inShape (sh c : List ℕ) : Prop := List.Forall₂ (· < ·) c sh

/-- the loops of `make_hermitian` and `make_real_in_tau`, imfreq.hpp:189-199, 203-210, 239: `refl n` is the index
of the row read together with row `n` and `al` the order of its indices. Undefined if the shapes differ or a row is
outside of the array. -/
noncomputable def symmetrise (g : GF ℂ) (refl : ℤ → ℤ) (al : List ℕ → List ℕ) : Option (GF ℂ) :=
  if al g.shape ≠ g.shape then none
  else if (g.mesh.indices.all fun n => g.mesh.valid (refl n)) then
    some { g with dat := fun d c => if 0 ≤ d ∧ d < g.mesh.size then
      (1 / 2) * (g.dat d c + (starRingEnd ℂ) (g.dat (g.mesh.toDataIndex (refl (g.mesh.toIndex d))) (al c))) else g.dat d c }
  else none

/-- the loops of `is_gf_hermitian`, `is_gf_real_in_tau` -/
def isSymmetric (g : GF ℂ) (refl : ℤ → ℤ) (al : List ℕ → List ℕ) (tol : ℝ) : Prop :=
  ∀ n ∈ g.mesh.indices, ∀ c, inShape g.shape c →
    ¬ ‖(starRingEnd ℂ) (g.dat (g.mesh.toDataIndex (refl n)) (al c)) - g.dat (g.mesh.toDataIndex n) c‖ > tol

/-- `make_hermitian`, imfreq.hpp:175-200, Matsubara functions -/
noncomputable def makeHermitian (g : GF ℂ) : Option (GF ℂ) :=
  if g.mesh.positiveOnly then some g else symmetrise g (negIdx g.mesh) adj
/-- `is_gf_hermitian`, imfreq.hpp:81-106 -/
def isHermitian (g : GF ℂ) (tol : ℝ) : Prop := g.mesh.positiveOnly = true ∨ isSymmetric g (negIdx g.mesh) adj tol
/-- `make_hermitian`, imfreq.hpp:201-211, functions of imaginary time; the mesh is used for its indices only -/
noncomputable def makeHermitianTau (g : GF ℂ) : Option (GF ℂ) := symmetrise g id adj
/-- `is_gf_hermitian`, imfreq.hpp:107-120 -/
def isHermitianTau (g : GF ℂ) (tol : ℝ) : Prop := isSymmetric g id adj tol
/-- `make_real_in_tau`, imfreq.hpp:228-244 -/
noncomputable def makeRealInTau (g : GF ℂ) : Option (GF ℂ) :=
  if g.mesh.positiveOnly then some g else symmetrise g (negIdx g.mesh) id
/-- `is_gf_real_in_tau`, imfreq.hpp:139-157 -/
def isRealInTau (g : GF ℂ) (tol : ℝ) : Prop := g.mesh.positiveOnly = true ∨ isSymmetric g (negIdx g.mesh) id tol

/-- `tail_eval`, tail_fitter.hpp:49-64, one component: `for (n = 0; n < N; ++n, z /= om) res += A(n) * z`.
`none`: a quotient by zero is used. -/
def tailLoop {K : Type} [Field K] [DecidableEq K] (A : ℕ → K) (om : K) : ℕ → ℕ → Option K → K → Option K
  | 0, _, _, res => some res
  | k + 1, n, z, res => z.bind fun z => tailLoop A om k (n + 1) (if om = 0 then none else some (z / om)) (res + A n * z)
def tailEval {K : Type} [Field K] [DecidableEq K] (A : ℕ → K) (N : ℕ) (om : K) : Option K := tailLoop A om N 0 (some 1) 0

/-- condition of `replace_by_tail`, imfreq.hpp:261 -/
def replaced (nmin n : ℤ) : Bool := decide (n ≥ nmin) || decide (n < -nmin)

open Classical in
/-- `replace_by_tail`, imfreq.hpp:259-262; `tail k c`: component `c` of moment `k`, `N` moments -/
noncomputable def replaceByTail (g : GF ℂ) (tail : ℕ → List ℕ → ℂ) (N : ℕ) (nmin : ℤ) (n : ℤ) (c : List ℕ) : Option ℂ :=
  if replaced nmin n then tailEval (fun k => tail k c) N (Freq.value ⟨n, g.mesh.beta, g.mesh.stat⟩)
  else some (g.dat (g.mesh.toDataIndex n) c)

/-- `restricted_view`, imfreq.hpp:248-257 -/
def restrictedView {K : Type} (g : GF K) (nmax : ℤ) : Out (GF K) :=
  let m := Mesh.mk' g.mesh.beta .fermion nmax false
  let imin := g.mesh.toDataIndex m.first
  let imax := g.mesh.toDataIndex m.last
  if 0 ≤ imin ∧ imax < g.len ∧ imin ≤ imax + 1 then .ok ⟨m, imax + 1 - imin, g.shape, fun d => g.dat (imin + d)⟩ else .undef

/-! ## Proofs -/

/-! ### C55 -/

theorem foldl_setRow {K : Type} (len : ℤ) (ws : List (ℤ × (List ℕ → K))) : ∀ a : ℤ → Option (List ℕ → K),
    (∀ w ∈ ws, 0 ≤ w.1 ∧ w.1 < len) → (ws.map Prod.fst).Nodup →
    ∃ r, ws.foldl (setRow len) (some a) = some r ∧ (∀ w ∈ ws, r w.1 = some w.2) ∧ ∀ i, i ∉ ws.map Prod.fst → r i = a i := by
  induction ws with
  | nil => intro a _ _; exact ⟨a, rfl, by simp, by simp⟩
  | cons w ws ih =>
    intro a hb hn
    simp only [List.map_cons, List.nodup_cons] at hn
    have hw := hb w (by simp)
    obtain ⟨r, h1, h2, h3⟩ := ih (fun i => if i = w.1 then some w.2 else a i) (fun x hx => hb x (by simp [hx])) hn.2
    refine ⟨r, ?_, ?_, ?_⟩
    · rw [List.foldl_cons]
      simp only [setRow, Option.bind_some, if_pos hw]
      exact h1
    · intro x hx
      rcases List.mem_cons.mp hx with rfl | hx
      · rw [h3 _ hn.1]; simp
      · exact h2 x hx
    · intro i hi
      simp only [List.map_cons, List.mem_cons, not_or] at hi
      rw [h3 i hi.2, if_neg hi.1]

/-- rows of the extended function: positive frequencies are copied, negative ones conjugated -/
theorem makeFromReal_rows {K : Type} [Star K] (beta : ℝ) (st : Stat) (n : ℕ) (hn : 1 ≤ n) (sh : List ℕ) (dat : ℤ → List ℕ → K) :
    ∃ a, makeFromReal ⟨Mesh.mk' beta st n true, n, sh, dat⟩ = .ok (Mesh.mk' beta st n false, (Mesh.mk' beta st n false).size, sh, a) ∧
      (∀ i : ℤ, 0 ≤ i → i < n → a ((Mesh.mk' beta st n false).toDataIndex i) = some (dat i)) ∧
      (∀ i : ℤ, (st = .boson → 1 ≤ i) → 0 ≤ i → i < n →
        a ((Mesh.mk' beta st n false).toDataIndex (negIdx (Mesh.mk' beta st n false) i)) = some (fun c => star (dat i c))) := by
  cases st with
  | fermion =>
    set ws : List (ℤ × (List ℕ → K)) := ((List.range ((n : ℤ) - 0).toNat).map (fun k : ℕ => (0 : ℤ) + k)).flatMap
      (fun u => [((n : ℤ) + u, dat u), ((n : ℤ) - 1 - u, fun c => star (dat u c))]) with hws
    have hmem : ∀ w, w ∈ ws ↔ ∃ u : ℤ, 0 ≤ u ∧ u < n ∧ (w = ((n : ℤ) + u, dat u) ∨ w = ((n : ℤ) - 1 - u, fun c => star (dat u c))) := by
      intro w
      rw [hws]
      simp only [List.mem_flatMap, List.mem_map, List.mem_range, List.mem_cons, List.not_mem_nil, or_false]
      constructor
      · rintro ⟨u, ⟨k, hk, rfl⟩, h⟩
        exact ⟨0 + k, by omega, by omega, h⟩
      · rintro ⟨u, h0, h1, h⟩
        exact ⟨u, ⟨u.toNat, by omega, by omega⟩, h⟩
    have hb : ∀ w ∈ ws, 0 ≤ w.1 ∧ w.1 < 2 * (n : ℤ) := by
      intro w hw
      obtain ⟨u, h0, h1, rfl | rfl⟩ := (hmem w).mp hw <;> constructor <;> simp only <;> omega
    have hnd : (ws.map Prod.fst).Nodup := by
      rw [hws, List.map_flatMap, List.nodup_flatMap]
      constructor
      · intro u hu
        simp only [List.mem_map, List.mem_range] at hu
        obtain ⟨k, hk, rfl⟩ := hu
        simp
        omega
      · rw [List.pairwise_map]
        apply List.Pairwise.imp_of_mem _ List.nodup_range
        intro k l hk hl hkl
        have := List.mem_range.mp hk
        have := List.mem_range.mp hl
        simp [Function.onFun]
        omega
    obtain ⟨r, h1, h2, h3⟩ := foldl_setRow (2 * (n : ℤ)) ws (fun _ => none) hb hnd
    refine ⟨r, ?_, ?_, ?_⟩
    · unfold makeFromReal
      simp only [Mesh.mk', Bool.not_true, Bool.false_eq_true, if_false, reduceCtorEq, false_and, List.nil_append, sub_zero]
      rw [hws] at h1
      simp only [sub_zero] at h1
      rw [h1]
      simp [Mesh.size]
      ring
    · intro i hi0 hin
      have := h2 _ ((hmem _).mpr ⟨i, hi0, hin, Or.inl rfl⟩)
      simp only at this
      rw [← this]
      congr 1
      simp [Mesh.toDataIndex, Mesh.mk']
      ring
    · intro i _ hi0 hin
      have := h2 _ ((hmem _).mpr ⟨i, hi0, hin, Or.inr rfl⟩)
      simp only at this
      rw [← this]
      congr 1
      simp [Mesh.toDataIndex, Mesh.mk', negIdx, Freq.neg]
      ring
  | boson =>
    set ws : List (ℤ × (List ℕ → K)) := ((n : ℤ) - 1, dat 0) :: ((List.range ((n : ℤ) - 1).toNat).map (fun k : ℕ => (1 : ℤ) + k)).flatMap
      (fun u => [((n : ℤ) - 1 + u, dat u), ((n : ℤ) - 1 - u, fun c => star (dat u c))]) with hws
    have hmem : ∀ w, w ∈ ws ↔ w = ((n : ℤ) - 1, dat 0) ∨ ∃ u : ℤ, 1 ≤ u ∧ u < n ∧ (w = ((n : ℤ) - 1 + u, dat u) ∨ w = ((n : ℤ) - 1 - u, fun c => star (dat u c))) := by
      intro w
      rw [hws]
      simp only [List.mem_flatMap, List.mem_map, List.mem_range, List.mem_cons, List.not_mem_nil, or_false]
      constructor
      · rintro (h | ⟨u, ⟨k, hk, rfl⟩, h⟩)
        · exact Or.inl h
        · exact Or.inr ⟨1 + k, by omega, by omega, h⟩
      · rintro (h | ⟨u, h0, h1, h⟩)
        · exact Or.inl h
        · exact Or.inr ⟨u, ⟨(u - 1).toNat, by omega, by omega⟩, h⟩
    have hb : ∀ w ∈ ws, 0 ≤ w.1 ∧ w.1 < 2 * (n : ℤ) - 1 := by
      intro w hw
      obtain rfl | ⟨u, h0, h1, rfl | rfl⟩ := (hmem w).mp hw <;> constructor <;> simp only <;> omega
    have hnd : (ws.map Prod.fst).Nodup := by
      rw [hws, List.map_cons, List.nodup_cons]
      constructor
      · simp
        intro x _
        omega
      · rw [List.map_flatMap, List.nodup_flatMap]
        constructor
        · intro u hu
          simp only [List.mem_map, List.mem_range] at hu
          obtain ⟨k, hk, rfl⟩ := hu
          simp
          omega
        · rw [List.pairwise_map]
          apply List.Pairwise.imp_of_mem _ List.nodup_range
          intro k l hk hl hkl
          have := List.mem_range.mp hk
          have := List.mem_range.mp hl
          simp [Function.onFun]
          omega
    obtain ⟨r, h1, h2, h3⟩ := foldl_setRow (2 * (n : ℤ) - 1) ws (fun _ => none) hb hnd
    refine ⟨r, ?_, ?_, ?_⟩
    · unfold makeFromReal
      have hn1 : ¬ ((n : ℤ) < 1) := by omega
      simp only [Mesh.mk', Bool.not_true, Bool.false_eq_true, if_false, if_true, true_and, hn1]
      rw [hws] at h1
      simp only [List.cons_append, List.nil_append]
      rw [h1]
      simp [Mesh.size]
      ring
    · intro i hi0 hin
      have hd : (Mesh.mk' beta .boson n false).toDataIndex i = (n : ℤ) - 1 + i := by
        simp [Mesh.toDataIndex, Mesh.mk']
        ring
      rw [hd]
      rcases eq_or_lt_of_le hi0 with h | h
      · have := h2 _ ((hmem _).mpr (Or.inl rfl))
        rw [← h, add_zero]
        exact this
      · exact h2 _ ((hmem _).mpr (Or.inr ⟨i, h, hin, Or.inl rfl⟩))
    · intro i hi1 _ hin
      have hd : (Mesh.mk' beta .boson n false).toDataIndex (negIdx (Mesh.mk' beta .boson n false) i) = (n : ℤ) - 1 - i := by
        simp [Mesh.toDataIndex, Mesh.mk', negIdx, Freq.neg]
        ring
      rw [hd]
      exact h2 _ ((hmem _).mpr (Or.inr ⟨i, hi1 rfl, hin, Or.inr rfl⟩))

theorem tdiv_two_mul (n : ℤ) (h : 0 ≤ n) : Int.tdiv (2 * n + 1) 2 = n ∧ Int.tdiv (2 * n - 1 + 1) 2 = n := by
  constructor
  · rw [Int.tdiv_eq_ediv_of_nonneg (by omega)]; omega
  · rw [Int.tdiv_eq_ediv_of_nonneg (by omega)]; omega

/-- **C55, round trip.** For both statistics, every number of frequencies and all data, the extension to negative
frequencies is defined everywhere, and its positive part is the original function. -/
theorem C55_round_trip {K : Type} [Star K] (beta : ℝ) (st : Stat) (n : ℕ) (hn : 1 ≤ n) (sh : List ℕ) (dat : ℤ → List ℕ → K) :
    ∃ dat' : ℤ → List ℕ → K, ∃ a,
      makeFromReal ⟨Mesh.mk' beta st n true, n, sh, dat⟩ = .ok (Mesh.mk' beta st n false, (Mesh.mk' beta st n false).size, sh, a) ∧
      (∀ d, 0 ≤ d → d < (Mesh.mk' beta st n false).size → a d = some (dat' d)) ∧
      ∃ p, positiveView ⟨Mesh.mk' beta st n false, (Mesh.mk' beta st n false).size, sh, dat'⟩ = .ok p ∧
        p.mesh = Mesh.mk' beta st n true ∧ p.len = n ∧ p.shape = sh ∧ ∀ d : ℤ, 0 ≤ d → d < n → p.dat d = dat d := by
  obtain ⟨a, h1, h2, h3⟩ := makeFromReal_rows beta st n hn sh dat
  refine ⟨fun d => (a d).getD (fun c => dat 0 c), a, h1, ?_, ?_⟩
  · intro d h0 hd
    cases st with
    | fermion =>
      simp only [Mesh.size, Mesh.mk', Bool.false_eq_true, if_false, if_true] at hd
      by_cases hc : (n : ℤ) ≤ d
      · have := h2 (d - n) (by omega) (by omega)
        have hi : (Mesh.mk' beta .fermion n false).toDataIndex (d - n) = d := by simp [Mesh.toDataIndex, Mesh.mk']
        rw [hi] at this
        simp [this]
      · have := h3 (n - 1 - d) (by simp) (by omega) (by omega)
        have hi : (Mesh.mk' beta .fermion n false).toDataIndex (negIdx (Mesh.mk' beta .fermion n false) (n - 1 - d)) = d := by
          simp [Mesh.toDataIndex, Mesh.mk', negIdx, Freq.neg]; ring
        rw [hi] at this
        simp [this]
    | boson =>
      simp only [Mesh.size, Mesh.mk', Bool.false_eq_true, if_false, reduceCtorEq] at hd
      by_cases hc : (n : ℤ) - 1 ≤ d
      · have := h2 (d - (n - 1)) (by omega) (by omega)
        have hi : (Mesh.mk' beta .boson n false).toDataIndex (d - (n - 1)) = d := by simp [Mesh.toDataIndex, Mesh.mk']; ring
        rw [hi] at this
        simp [this]
      · have := h3 (n - 1 - d) (by intro _; omega) (by omega) (by omega)
        have hi : (Mesh.mk' beta .boson n false).toDataIndex (negIdx (Mesh.mk' beta .boson n false) (n - 1 - d)) = d := by
          simp [Mesh.toDataIndex, Mesh.mk', negIdx, Freq.neg]; ring
        rw [hi] at this
        simp [this]
  · cases st with
    | fermion =>
      have hs : (Mesh.mk' beta .fermion n false).size = 2 * (n : ℤ) := by simp [Mesh.size, Mesh.mk']; ring
      unfold positiveView
      simp only [hs, (tdiv_two_mul n (by omega)).1]
      simp only [Mesh.mk', Bool.false_eq_true, if_false, reduceCtorEq, sub_zero]
      rw [if_pos (by omega)]
      refine ⟨_, rfl, rfl, by simp only; ring, rfl, ?_⟩
      intro d h0 hd
      have := h2 d h0 hd
      have hi : (Mesh.mk' beta .fermion n false).toDataIndex d = n + d := by simp [Mesh.toDataIndex, Mesh.mk']; ring
      rw [hi] at this
      simp [this]
    | boson =>
      have hs : (Mesh.mk' beta .boson n false).size = 2 * (n : ℤ) - 1 := by simp [Mesh.size, Mesh.mk']; ring
      unfold positiveView
      simp only [hs, (tdiv_two_mul n (by omega)).2]
      simp only [Mesh.mk', Bool.false_eq_true, if_false, if_true]
      rw [if_pos (by omega)]
      refine ⟨_, rfl, rfl, by simp only; ring, rfl, ?_⟩
      intro d h0 hd
      have := h2 d h0 hd
      have hi : (Mesh.mk' beta .boson n false).toDataIndex d = n - 1 + d := by simp [Mesh.toDataIndex, Mesh.mk']; ring
      rw [hi] at this
      simp [this]

/-- **C55, symmetry.** The extension satisfies `G(-iw) = conj G(iw)` at every frequency of the mesh; for bosons this
needs a real value at frequency zero. Missing: bosons with a complex value there (`C55_boson_zero`). -/
theorem C55_symmetry_partial {K : Type} [InvolutiveStar K] (beta : ℝ) (st : Stat) (n : ℕ) (hn : 1 ≤ n) (sh : List ℕ) (dat : ℤ → List ℕ → K)
    (hreal : st = .boson → ∀ c, star (dat 0 c) = dat 0 c) :
    ∃ a, makeFromReal ⟨Mesh.mk' beta st n true, n, sh, dat⟩ = .ok (Mesh.mk' beta st n false, (Mesh.mk' beta st n false).size, sh, a) ∧
      ∀ i, (Mesh.mk' beta st n false).valid i = true → (Mesh.mk' beta st n false).valid (negIdx (Mesh.mk' beta st n false) i) = true ∧
        ∃ x y, a ((Mesh.mk' beta st n false).toDataIndex i) = some x ∧
          a ((Mesh.mk' beta st n false).toDataIndex (negIdx (Mesh.mk' beta st n false) i)) = some y ∧ y = fun c => star (x c) := by
  obtain ⟨a, h1, h2, h3⟩ := makeFromReal_rows beta st n hn sh dat
  refine ⟨a, h1, ?_⟩
  intro i hi
  cases st with
  | fermion =>
    simp only [Mesh.valid, Mesh.mk', Bool.false_eq_true, if_false, if_true, Bool.and_eq_true, decide_eq_true_eq] at hi
    constructor
    · simp [Mesh.valid, Mesh.mk', negIdx, Freq.neg]; omega
    · by_cases hc : 0 ≤ i
      · exact ⟨_, _, h2 i hc (by omega), h3 i (by simp) hc (by omega), rfl⟩
      · have e1 := h2 (-i - 1) (by omega) (by omega)
        have e2 := h3 (-i - 1) (by simp) (by omega) (by omega)
        have hn1 : negIdx (Mesh.mk' beta .fermion n false) i = -i - 1 := by simp [negIdx, Freq.neg, Mesh.mk']; ring
        have hn2 : negIdx (Mesh.mk' beta .fermion n false) (-i - 1) = i := by simp [negIdx, Freq.neg, Mesh.mk']
        rw [hn2] at e2
        rw [hn1]
        refine ⟨_, _, e2, e1, ?_⟩
        funext c
        rw [star_star]
  | boson =>
    simp only [Mesh.valid, Mesh.mk', Bool.false_eq_true, if_false, reduceCtorEq, Bool.and_eq_true, decide_eq_true_eq] at hi
    constructor
    · simp [Mesh.valid, Mesh.mk', negIdx, Freq.neg]; omega
    · rcases lt_trichotomy i 0 with hc | hc | hc
      · have e1 := h2 (-i) (by omega) (by omega)
        have e2 := h3 (-i) (by omega) (by omega) (by omega)
        have hn1 : negIdx (Mesh.mk' beta .boson n false) i = -i := by simp [negIdx, Freq.neg, Mesh.mk']
        have hn2 : negIdx (Mesh.mk' beta .boson n false) (-i) = i := by simp [negIdx, Freq.neg, Mesh.mk']
        rw [hn2] at e2
        rw [hn1]
        refine ⟨_, _, e2, e1, ?_⟩
        funext c
        rw [star_star]
      · subst hc
        have e1 := h2 0 (by omega) (by omega)
        have hn1 : negIdx (Mesh.mk' beta .boson n false) 0 = 0 := by simp [negIdx, Freq.neg, Mesh.mk']
        rw [hn1]
        exact ⟨_, _, e1, e1, by funext c; rw [hreal rfl]⟩
      · exact ⟨_, _, h2 i (by omega) (by omega), h3 i (by intro _; omega) (by omega) (by omega), rfl⟩

/-- **C55 fails** for bosons with a complex value at frequency zero: it is kept. -/
theorem C55_boson_zero : ∃ a, makeFromReal (K := GaussianInt) ⟨Mesh.mk' 1 .boson 1 true, 1, [], fun _ _ => ⟨0, 1⟩⟩ =
      .ok (Mesh.mk' 1 .boson 1 false, 1, [], a) ∧ negIdx (Mesh.mk' 1 .boson 1 false) 0 = 0 ∧
      a ((Mesh.mk' 1 .boson 1 false).toDataIndex 0) = some (fun _ => ⟨0, 1⟩) ∧ (star (⟨0, 1⟩ : GaussianInt) ≠ ⟨0, 1⟩) := by
  refine ⟨_, rfl, ?_, ?_, by decide⟩
  · simp [negIdx, Freq.neg, Mesh.mk']
  · simp [Mesh.toDataIndex, Mesh.mk']

/-- two fermionic frequencies: the rows of the extension are `1 - i, -i, i, 1 + i` -/
example : ∃ a, makeFromReal (K := GaussianInt) ⟨Mesh.mk' 1 .fermion 2 true, 2, [], fun d _ => ⟨d, 1⟩⟩ =
    .ok (Mesh.mk' 1 .fermion 2 false, 4, [], a) ∧ (a 0).map (· []) = some ⟨1, -1⟩ ∧ (a 1).map (· []) = some ⟨0, -1⟩ ∧
    (a 2).map (· []) = some ⟨0, 1⟩ ∧ (a 3).map (· []) = some ⟨1, 1⟩ := ⟨_, rfl, by decide, by decide, by decide, by decide⟩

/-- the documented exception: the argument must have positive frequencies only -/
theorem C55_needs_positive {K : Type} [Star K] (beta : ℝ) (st : Stat) (n len : ℤ) (sh : List ℕ) (dat : ℤ → List ℕ → K) :
    ∃ g : GF K, g = ⟨Mesh.mk' beta st n false, len, sh, dat⟩ ∧ (match makeFromReal g with | .exn => True | _ => False) :=
  ⟨_, rfl, by simp [makeFromReal, Mesh.mk']⟩

/-! ### C56 -/

theorem adj_adj (c : List ℕ) : adj (adj c) = c := by
  rcases c with _ | ⟨a, _ | ⟨b, _ | ⟨c, _ | ⟨d, _ | ⟨e, l⟩⟩⟩⟩⟩ <;> rfl

theorem mem_indices (m : Mesh) (n : ℤ) : n ∈ m.indices ↔ m.valid n = true := by
  simp only [Mesh.indices, List.mem_map, List.mem_range, Mesh.valid, Bool.and_eq_true, decide_eq_true_eq, Mesh.size, Mesh.toIndex]
  constructor
  · rintro ⟨d, hd, rfl⟩
    omega
  · rintro ⟨h1, h2⟩
    exact ⟨(n - m.first).toNat, by omega, by omega⟩

theorem toDataIndex_bounds {m : Mesh} {n : ℤ} (h : m.valid n = true) : 0 ≤ m.toDataIndex n ∧ m.toDataIndex n < m.size := by
  simp only [Mesh.valid, Bool.and_eq_true, decide_eq_true_eq] at h
  simp only [Mesh.toDataIndex, Mesh.size]
  omega

theorem toIndex_toDataIndex (m : Mesh) (n : ℤ) : m.toIndex (m.toDataIndex n) = n := by
  simp [Mesh.toIndex, Mesh.toDataIndex]

theorem valid_toIndex {m : Mesh} {d : ℤ} (h0 : 0 ≤ d) (h1 : d < m.size) : m.valid (m.toIndex d) = true := by
  simp only [Mesh.size] at h1
  rw [Mesh.valid, Bool.and_eq_true, decide_eq_true_iff, decide_eq_true_iff, Mesh.toIndex]
  omega

theorem negIdx_negIdx (m : Mesh) (n : ℤ) : negIdx m (negIdx m n) = n := by
  cases h : m.stat <;> simp [negIdx, Freq.neg, h]

theorem valid_negIdx (beta : ℝ) (st : Stat) (N : ℤ) {n : ℤ} (h : (Mesh.mk' beta st N false).valid n = true) :
    (Mesh.mk' beta st N false).valid (negIdx (Mesh.mk' beta st N false) n) = true := by
  cases st <;> simp [Mesh.valid, Mesh.mk', negIdx, Freq.neg] at * <;> omega

/-- everything about one symmetrisation loop, for any reflection of the mesh and of the target indices -/
theorem symmetrise_spec (g : GF ℂ) (refl : ℤ → ℤ) (al : List ℕ → List ℕ) (hsh : al g.shape = g.shape)
    (hal : ∀ c, al (al c) = c) (hr : ∀ n, refl (refl n) = n)
    (hv : ∀ n, g.mesh.valid n = true → g.mesh.valid (refl n) = true) :
    ∃ h, symmetrise g refl al = some h ∧ h.mesh = g.mesh ∧ h.shape = g.shape ∧ h.len = g.len ∧
      (∀ n, g.mesh.valid n = true → ∀ c, h.dat (g.mesh.toDataIndex n) c =
        (g.dat (g.mesh.toDataIndex n) c + (starRingEnd ℂ) (g.dat (g.mesh.toDataIndex (refl n)) (al c))) / 2) ∧
      (∀ n, g.mesh.valid n = true → ∀ c, (starRingEnd ℂ) (h.dat (g.mesh.toDataIndex (refl n)) (al c)) = h.dat (g.mesh.toDataIndex n) c) ∧
      (∀ tol, 0 ≤ tol → isSymmetric h refl al tol) ∧
      symmetrise h refl al = some h ∧
      (∀ tol, isSymmetric g refl al tol → ∀ n, g.mesh.valid n = true → ∀ c, inShape g.shape c →
        ‖h.dat (g.mesh.toDataIndex n) c - g.dat (g.mesh.toDataIndex n) c‖ ≤ tol / 2) := by
  have hall : (g.mesh.indices.all fun n => g.mesh.valid (refl n)) = true := by
    rw [List.all_eq_true]
    intro n hn
    exact hv n ((mem_indices _ _).mp hn)
  set h : GF ℂ := { g with dat := fun d c => if 0 ≤ d ∧ d < g.mesh.size then
      (1 / 2) * (g.dat d c + (starRingEnd ℂ) (g.dat (g.mesh.toDataIndex (refl (g.mesh.toIndex d))) (al c))) else g.dat d c } with hh
  have hs : symmetrise g refl al = some h := by
    unfold symmetrise
    rw [if_neg (by simp [hsh]), if_pos hall]
  have hd : ∀ n, g.mesh.valid n = true → ∀ c, h.dat (g.mesh.toDataIndex n) c =
        (g.dat (g.mesh.toDataIndex n) c + (starRingEnd ℂ) (g.dat (g.mesh.toDataIndex (refl n)) (al c))) / 2 := by
    intro n hn c
    simp only [hh]
    rw [if_pos (toDataIndex_bounds hn), toIndex_toDataIndex]
    ring
  have hherm : ∀ n, g.mesh.valid n = true → ∀ c,
      (starRingEnd ℂ) (h.dat (g.mesh.toDataIndex (refl n)) (al c)) = h.dat (g.mesh.toDataIndex n) c := by
    intro n hn c
    rw [hd n hn, hd _ (hv n hn), hr, hal]
    simp only [map_div₀, map_add, Complex.conj_conj, map_ofNat]
    ring
  refine ⟨h, hs, rfl, rfl, rfl, hd, hherm, ?_, ?_, ?_⟩
  · intro tol ht n hn c _
    have := hherm n ((mem_indices _ _).mp hn) c
    change ¬ ‖(starRingEnd ℂ) (h.dat (g.mesh.toDataIndex (refl n)) (al c)) - h.dat (g.mesh.toDataIndex n) c‖ > tol
    rw [this, sub_self, norm_zero]
    exact not_lt.mpr ht
  · unfold symmetrise
    have e1 : h.shape = g.shape := rfl
    have e2 : h.mesh = g.mesh := rfl
    rw [e1, e2, if_neg (by simp [hsh]), if_pos hall]
    congr 1
    have : (fun d c => if 0 ≤ d ∧ d < g.mesh.size then
      (1 / 2) * (h.dat d c + (starRingEnd ℂ) (h.dat (g.mesh.toDataIndex (refl (g.mesh.toIndex d))) (al c))) else h.dat d c) = h.dat := by
      funext d c
      split
      · rename_i hb
        have hv' := valid_toIndex hb.1 hb.2
        have h1 := hherm _ hv' c
        have h2 : g.mesh.toDataIndex (g.mesh.toIndex d) = d := by simp [Mesh.toIndex, Mesh.toDataIndex]
        rw [h2] at h1
        rw [h1]
        ring
      · rfl
    rw [this]
  · intro tol ht n hn c hc
    have h1 := not_lt.mp (ht n ((mem_indices _ _).mpr hn) c hc)
    rw [hd n hn c]
    have h2 : (g.dat (g.mesh.toDataIndex n) c + (starRingEnd ℂ) (g.dat (g.mesh.toDataIndex (refl n)) (al c))) / 2 -
        g.dat (g.mesh.toDataIndex n) c =
        ((starRingEnd ℂ) (g.dat (g.mesh.toDataIndex (refl n)) (al c)) - g.dat (g.mesh.toDataIndex n) c) / 2 := by ring
    rw [h2, norm_div]
    have h3 : ‖(2 : ℂ)‖ = 2 := by simp
    rw [h3]
    linarith

/-- **C56, Matsubara functions.** For every Hermitian-shaped target of rank 0, 2 or 4, both statistics and every mesh of
positive and negative frequencies: the result of `make_hermitian` satisfies `G(iw)(c) = conj G(-iw)(adj c)` exactly, is
accepted by `is_gf_hermitian` for every tolerance, is left alone by a second call, and is within `tol / 2` of every function
accepted with tolerance `tol` (so a Hermitian function is not changed). -/
theorem C56_hermitian (beta : ℝ) (st : Stat) (N : ℕ) (len : ℤ) (sh : List ℕ) (dat : ℤ → List ℕ → ℂ) (hsh : adj sh = sh) :
    ∃ h, makeHermitian ⟨Mesh.mk' beta st N false, len, sh, dat⟩ = some h ∧ h.mesh = Mesh.mk' beta st N false ∧ h.shape = sh ∧ h.len = len ∧
      (∀ n, h.mesh.valid n = true → ∀ c,
        h.dat (h.mesh.toDataIndex n) c = (starRingEnd ℂ) (h.dat (h.mesh.toDataIndex (negIdx h.mesh n)) (adj c))) ∧
      (∀ tol, 0 ≤ tol → isHermitian h tol) ∧ makeHermitian h = some h ∧
      (∀ tol, isHermitian ⟨Mesh.mk' beta st N false, len, sh, dat⟩ tol → ∀ n, h.mesh.valid n = true → ∀ c, inShape sh c →
        ‖h.dat (h.mesh.toDataIndex n) c - dat (h.mesh.toDataIndex n) c‖ ≤ tol / 2) := by
  obtain ⟨h, h1, h2, h3, h4, -, h6, h7, h8, h9⟩ := symmetrise_spec ⟨Mesh.mk' beta st N false, len, sh, dat⟩
    (negIdx (Mesh.mk' beta st N false)) adj hsh adj_adj (negIdx_negIdx _) (fun n hn => valid_negIdx beta st N hn)
  simp only at h2 h3 h4
  refine ⟨h, ?_, h2, h3, h4, ?_, ?_, ?_, ?_⟩
  · simpa [makeHermitian, Mesh.mk'] using h1
  · rw [h2]
    intro n hn c
    exact (h6 n hn c).symm
  · intro tol ht
    right
    rw [h2]
    exact h7 tol ht
  · unfold makeHermitian
    rw [h2]
    simpa [Mesh.mk'] using h8
  · rw [h2]
    intro tol ht
    rcases ht with ht | ht
    · simp [Mesh.mk'] at ht
    · exact h9 tol ht

/-- **C56, components.** Row by row and with the indices written out: the frequency of row `d` is minus that of the row
counted from the other end, and the result of `make_hermitian` is the mean of the two as the documentation states it for
scalars, square matrices and tensors with four indices. -/
theorem C56_components (beta : ℝ) (st : Stat) (N a b : ℕ) (len : ℤ) (dat : ℤ → List ℕ → ℂ) (d : ℤ)
    (hd : 0 ≤ d ∧ d < (Mesh.mk' beta st N false).size) :
    let e := (Mesh.mk' beta st N false).size - 1 - d
    (∀ h, makeHermitian ⟨Mesh.mk' beta st N false, len, [], dat⟩ = some h →
      h.dat d [] = (dat d [] + (starRingEnd ℂ) (dat e [])) / 2) ∧
    (∀ h, makeHermitian ⟨Mesh.mk' beta st N false, len, [a, a], dat⟩ = some h →
      ∀ i j, h.dat d [i, j] = (dat d [i, j] + (starRingEnd ℂ) (dat e [j, i])) / 2) ∧
    (∀ h, makeHermitian ⟨Mesh.mk' beta st N false, len, [a, b, a, b], dat⟩ = some h →
      ∀ i j k l, h.dat d [i, j, k, l] = (dat d [i, j, k, l] + (starRingEnd ℂ) (dat e [k, l, i, j])) / 2) := by
  have key : ∀ (sh : List ℕ) (hsh : adj sh = sh) (h : GF ℂ), makeHermitian ⟨Mesh.mk' beta st N false, len, sh, dat⟩ = some h →
      ∀ c, h.dat d c = (dat d c + (starRingEnd ℂ) (dat ((Mesh.mk' beta st N false).size - 1 - d) (adj c))) / 2 := by
    intro sh hsh h hh c
    obtain ⟨h', h1, -, -, -, h5, -⟩ := symmetrise_spec ⟨Mesh.mk' beta st N false, len, sh, dat⟩
      (negIdx (Mesh.mk' beta st N false)) adj hsh adj_adj (negIdx_negIdx _) (fun n hn => valid_negIdx beta st N hn)
    have hh' : h = h' := by
      have : makeHermitian ⟨Mesh.mk' beta st N false, len, sh, dat⟩ = some h' := by simpa [makeHermitian, Mesh.mk'] using h1
      rw [this] at hh
      exact (Option.some.inj hh).symm
    have hv : (Mesh.mk' beta st N false).valid ((Mesh.mk' beta st N false).toIndex d) = true := by
      revert hd
      cases st <;> simp [Mesh.mk', Mesh.valid, Mesh.toIndex, Mesh.size] <;> omega
    have := h5 _ hv c
    simp only at this
    have e1 : (Mesh.mk' beta st N false).toDataIndex ((Mesh.mk' beta st N false).toIndex d) = d := by
      simp [Mesh.toDataIndex, Mesh.toIndex]
    have e2 : (Mesh.mk' beta st N false).toDataIndex (negIdx (Mesh.mk' beta st N false) ((Mesh.mk' beta st N false).toIndex d)) =
        (Mesh.mk' beta st N false).size - 1 - d := by
      cases st <;> simp [Mesh.mk', Mesh.toDataIndex, Mesh.toIndex, Mesh.size, negIdx, Freq.neg] <;> omega
    rw [e1, e2] at this
    rw [hh', this]
  exact ⟨fun h hh => key [] rfl h hh [], fun h hh i j => key [a, a] rfl h hh [i, j],
    fun h hh i j k l => key [a, b, a, b] rfl h hh [i, j, k, l]⟩

/-- **C56, imaginary time**: the same with `G(tau)(c) = conj G(tau)(adj c)`. -/
theorem C56_hermitian_tau (g : GF ℂ) (hsh : adj g.shape = g.shape) :
    ∃ h, makeHermitianTau g = some h ∧ h.mesh = g.mesh ∧ h.shape = g.shape ∧ h.len = g.len ∧
      (∀ n, g.mesh.valid n = true → ∀ c, h.dat (g.mesh.toDataIndex n) c = (starRingEnd ℂ) (h.dat (g.mesh.toDataIndex n) (adj c))) ∧
      (∀ tol, 0 ≤ tol → isHermitianTau h tol) ∧ makeHermitianTau h = some h ∧
      (∀ tol, isHermitianTau g tol → ∀ n, g.mesh.valid n = true → ∀ c, inShape g.shape c →
        ‖h.dat (g.mesh.toDataIndex n) c - g.dat (g.mesh.toDataIndex n) c‖ ≤ tol / 2) := by
  obtain ⟨h, h1, h2, h3, h4, -, h6, h7, h8, h9⟩ := symmetrise_spec g id adj hsh adj_adj
    (fun _ => rfl) (fun n hn => hn)
  exact ⟨h, h1, h2, h3, h4, fun n hn c => (h6 n hn c).symm, h7, h8, h9⟩

/-- **C56, real imaginary-time functions**: the same with `G(iw)(c) = conj G(-iw)(c)`, for every shape. -/
theorem C56_real_in_tau (beta : ℝ) (st : Stat) (N : ℕ) (len : ℤ) (sh : List ℕ) (dat : ℤ → List ℕ → ℂ) :
    ∃ h, makeRealInTau ⟨Mesh.mk' beta st N false, len, sh, dat⟩ = some h ∧ h.mesh = Mesh.mk' beta st N false ∧ h.shape = sh ∧ h.len = len ∧
      (∀ n, h.mesh.valid n = true → ∀ c,
        h.dat (h.mesh.toDataIndex n) c = (starRingEnd ℂ) (h.dat (h.mesh.toDataIndex (negIdx h.mesh n)) c)) ∧
      (∀ tol, 0 ≤ tol → isRealInTau h tol) ∧ makeRealInTau h = some h ∧
      (∀ tol, isRealInTau ⟨Mesh.mk' beta st N false, len, sh, dat⟩ tol → ∀ n, h.mesh.valid n = true → ∀ c, inShape sh c →
        ‖h.dat (h.mesh.toDataIndex n) c - dat (h.mesh.toDataIndex n) c‖ ≤ tol / 2) := by
  obtain ⟨h, h1, h2, h3, h4, -, h6, h7, h8, h9⟩ := symmetrise_spec ⟨Mesh.mk' beta st N false, len, sh, dat⟩
    (negIdx (Mesh.mk' beta st N false)) id rfl (fun _ => rfl) (negIdx_negIdx _) (fun n hn => valid_negIdx beta st N hn)
  simp only at h2 h3 h4
  refine ⟨h, ?_, h2, h3, h4, ?_, ?_, ?_, ?_⟩
  · simpa [makeRealInTau, Mesh.mk'] using h1
  · rw [h2]
    intro n hn c
    exact (h6 n hn c).symm
  · intro tol ht
    right
    rw [h2]
    exact h7 tol ht
  · unfold makeRealInTau
    rw [h2]
    simpa [Mesh.mk'] using h8
  · rw [h2]
    intro tol ht
    rcases ht with ht | ht
    · simp [Mesh.mk'] at ht
    · exact h9 tol ht

/-- **C56, the check.** A function with both signs of frequencies is accepted with tolerance 0 exactly when
`G(iw)(c) = conj G(-iw)(adj c)` on the mesh. -/
theorem C56_check (g : GF ℂ) (hp : g.mesh.positiveOnly = false) :
    isHermitian g 0 ↔ ∀ n, g.mesh.valid n = true → ∀ c, inShape g.shape c →
      g.dat (g.mesh.toDataIndex n) c = (starRingEnd ℂ) (g.dat (g.mesh.toDataIndex (negIdx g.mesh n)) (adj c)) := by
  unfold isHermitian isSymmetric
  constructor
  · rintro (h | h) n hn c hc
    · rw [hp] at h; cases h
    · have := not_lt.mp (h n ((mem_indices _ _).mpr hn) c hc)
      have h0 := norm_le_zero_iff.mp this
      exact (sub_eq_zero.mp h0).symm
  · intro h
    right
    intro n hn c hc
    rw [h n ((mem_indices _ _).mp hn) c hc]
    simp

/-- matrices that are not square, both signs of frequencies: the sum has operands of different shapes -/
theorem C56_not_square : makeHermitian ⟨Mesh.mk' 1 .fermion 1 false, 2, [1, 2], fun _ _ => 0⟩ = none := by
  simp [makeHermitian, Mesh.mk', symmetrise, adj]

/-- a concrete function that is changed: one fermionic frequency pair, `G(iw_0) = 1`, `G(-iw_0) = i` -/
example : ∃ h, makeHermitian ⟨Mesh.mk' 1 .fermion 1 false, 2, [], fun d _ => if d = 0 then Complex.I else 1⟩ = some h ∧
    h.dat 0 [] = (1 + Complex.I) / 2 ∧ h.dat 1 [] = (1 - Complex.I) / 2 := by
  refine ⟨_, by
    unfold makeHermitian symmetrise
    rw [if_neg (by simp [Mesh.mk']), if_neg (by simp [adj]), if_pos (by decide)], ?_, ?_⟩
  · simp [Mesh.mk', Mesh.size, Mesh.toIndex, Mesh.toDataIndex, negIdx, Freq.neg]
    ring
  · simp [Mesh.mk', Mesh.size, Mesh.toIndex, Mesh.toDataIndex, negIdx, Freq.neg]
    ring

/-! ### C59 -/

theorem tailLoop_eq {K : Type} [Field K] [DecidableEq K] (A : ℕ → K) {om : K} (h : om ≠ 0) (k : ℕ) : ∀ (n : ℕ) (z res : K),
    tailLoop A om k n (some z) res = some (res + ∑ j ∈ Finset.range k, A (n + j) * (z / om ^ j)) := by
  induction k with
  | zero => intro n z res; simp [tailLoop]
  | succ k ih =>
    intro n z res
    rw [tailLoop, Option.bind_some, if_neg h, ih, Finset.sum_range_succ', add_assoc]
    congr 2
    rw [add_comm]
    congr 1
    · apply Finset.sum_congr rfl
      intro j _
      rw [show n + 1 + j = n + (j + 1) from by ring, pow_succ']
      rw [div_div]
    · simp

/-- the sum over moments at every frequency but zero -/
theorem tailEval_eq {K : Type} [Field K] [DecidableEq K] (A : ℕ → K) (N : ℕ) {om : K} (h : om ≠ 0) :
    tailEval A N om = some (∑ k ∈ Finset.range N, A k / om ^ k) := by
  rw [tailEval, tailLoop_eq A h]
  simp [div_eq_mul_inv]

/-- at frequency zero only a constant tail is defined -/
theorem tailEval_zero {K : Type} [Field K] [DecidableEq K] (A : ℕ → K) (N : ℕ) : tailEval A (N + 2) 0 = none := by
  simp [tailEval, tailLoop]

theorem fermion_value_ne {beta : ℝ} (hb : beta ≠ 0) (n : ℤ) : Freq.value ⟨n, beta, .fermion⟩ ≠ 0 := by
  intro h
  have h2 := congrArg Complex.im h
  simp only [Freq.value, Stat.toInt, Complex.zero_im, div_eq_zero_iff, mul_eq_zero] at h2
  rcases h2 with (h2 | h2) | h2
  · exact Real.pi_ne_zero h2
  · have : (2 * n + 1 : ℤ) = 0 := by exact_mod_cast h2
    omega
  · exact hb h2

theorem conj_neg_value (x : Freq) : (starRingEnd ℂ) x.neg.value = x.value := by
  rw [(Verif.Matsubara.C44_frequency_arithmetic_partial x x rfl).2.2.1]
  apply Complex.ext <;> simp [Freq.value]

/-- **C59, fermions.** For every mesh, start index and tail: exactly the frequencies with `|w| ≥ w_{n_min}` are replaced, by
the sum over the moments, the others keep their value, and if the function and all moments are Hermitian, so is the result. -/
theorem C59_fermions_partial (beta : ℝ) (hb : 0 < beta) (M N : ℕ) (len : ℤ) (sh : List ℕ) (dat : ℤ → List ℕ → ℂ)
    (tail : ℕ → List ℕ → ℂ) (nmin : ℤ) (hmin : 0 ≤ nmin) :
    let g : GF ℂ := ⟨Mesh.mk' beta .fermion M false, len, sh, dat⟩;
    let w : ℤ → ℂ := fun n => Freq.value ⟨n, beta, .fermion⟩;
    ∃ h : ℤ → List ℕ → ℂ, (∀ n c, replaceByTail g tail N nmin n c = some (h n c)) ∧
      (∀ n c, ‖w n‖ ≥ ‖w nmin‖ → h n c = ∑ k ∈ Finset.range N, tail k c / w n ^ k) ∧
      (∀ n c, ‖w n‖ < ‖w nmin‖ → h n c = dat (g.mesh.toDataIndex n) c) ∧
      ((∀ k c, (starRingEnd ℂ) (tail k (adj c)) = tail k c) →
        (∀ n c, (starRingEnd ℂ) (dat (g.mesh.toDataIndex (negIdx g.mesh n)) (adj c)) = dat (g.mesh.toDataIndex n) c) →
        ∀ n c, w (negIdx g.mesh n) = - w n ∧ (starRingEnd ℂ) (h (negIdx g.mesh n) (adj c)) = h n c) := by
  intro g w
  have hnorm : ∀ n, ‖w n‖ = Real.pi / beta * |((2 * n + 1 : ℤ) : ℝ)| := by
    intro n
    have : w n = ((Real.pi / beta * ((2 * n + 1 : ℤ) : ℝ) : ℝ) : ℂ) * Complex.I := by
      apply Complex.ext <;> simp [w, Freq.value, Stat.toInt]
      ring
    rw [this, norm_mul, Complex.norm_I, mul_one, Complex.norm_real, Real.norm_eq_abs, abs_mul, abs_of_pos (div_pos Real.pi_pos hb)]
  have hle : ∀ n, ‖w n‖ ≥ ‖w nmin‖ ↔ replaced nmin n = true := by
    intro n
    rw [hnorm, hnorm, ge_iff_le, mul_le_mul_iff_right₀ (div_pos Real.pi_pos hb)]
    rw [← Int.cast_abs, ← Int.cast_abs, Int.cast_le]
    simp only [replaced, Bool.or_eq_true, decide_eq_true_eq]
    rw [abs_of_nonneg (by omega : (0 : ℤ) ≤ 2 * nmin + 1), le_abs]
    omega
  have hrefl : ∀ n, replaced nmin (negIdx g.mesh n) = replaced nmin n := by
    intro n
    rw [Bool.eq_iff_iff]
    simp only [replaced, Bool.or_eq_true, decide_eq_true_eq, negIdx, Freq.neg, g, Mesh.mk', if_true]
    omega
  classical
  let h : ℤ → List ℕ → ℂ := fun n c => if replaced nmin n then ∑ k ∈ Finset.range N, tail k c / w n ^ k else dat (g.mesh.toDataIndex n) c
  refine ⟨h, ?_, ?_, ?_, ?_⟩
  · intro n c
    unfold replaceByTail
    simp only [h]
    split
    · exact tailEval_eq _ N (fermion_value_ne hb.ne' n)
    · rfl
  · intro n c hn
    simp only [h]
    rw [if_pos ((hle n).mp hn)]
  · intro n c hn
    simp only [h]
    rw [if_neg]
    intro hc
    exact absurd ((hle n).mpr hc) (not_le.mpr hn)
  · intro ht hg n c
    have hwn : w (negIdx g.mesh n) = - w n := by
      have := (Verif.Matsubara.C44_frequency_arithmetic_partial ⟨n, beta, .fermion⟩ ⟨n, beta, .fermion⟩ rfl).2.2.1
      exact this
    refine ⟨hwn, ?_⟩
    have hcw : (starRingEnd ℂ) (w (negIdx g.mesh n)) = w n := conj_neg_value ⟨n, beta, .fermion⟩
    simp only [h]
    rw [hrefl]
    split
    · rw [map_sum]
      apply Finset.sum_congr rfl
      intro k _
      rw [map_div₀, map_pow, hcw, ht]
    · exact hg n c

/-- fermions, `n_min = 2`: indices -3 and 2 are replaced, -2 and 1 are not -/
example : (List.map (replaced 2) [-3, -2, 1, 2]) = [true, false, false, true] := by decide

/-- **C59 fails for bosons**: with `n_min = 1` frequency index 1 is replaced and -1 is not, so a zero function with the
Hermitian tail `1 / (iw)^2` becomes asymmetric. -/
theorem C59_bosons : ∃ x : ℂ, x ≠ 0 ∧ (starRingEnd ℂ) x ≠ 0 ∧
    (∀ c, replaceByTail ⟨Mesh.mk' 1 .boson 2 false, 3, [], fun _ _ => 0⟩ (fun k _ => if k = 2 then 1 else 0) 3 1 1 c = some x) ∧
    negIdx (Mesh.mk' 1 .boson 2 false) 1 = -1 ∧
    (∀ c, replaceByTail ⟨Mesh.mk' 1 .boson 2 false, 3, [], fun _ _ => 0⟩ (fun k _ => if k = 2 then 1 else 0) 3 1 (-1) c = some 0) := by
  have hne : Freq.value ⟨1, 1, .boson⟩ ≠ 0 := by
    intro h
    have h2 := congrArg Complex.im h
    simp [Freq.value, Stat.toInt, Real.pi_ne_zero] at h2
  refine ⟨1 / Freq.value ⟨1, 1, .boson⟩ ^ 2, ?_, ?_, ?_, ?_, ?_⟩
  · simp [hne]
  · rw [map_ne_zero]; simp [hne]
  · intro c
    unfold replaceByTail
    rw [if_pos (by decide)]
    simp only [Mesh.mk']
    rw [tailEval_eq _ _ hne]
    simp [Finset.sum_range_succ]
  · simp [negIdx, Freq.neg, Mesh.mk']
  · intro c
    unfold replaceByTail
    rw [if_neg (by decide)]

/-- **C59, bosons**: the pair `± n_min` is the only one that is treated differently, and starting at `n_min ≤ 0` includes
frequency zero, where the tail is not defined. -/
theorem C59_bosons_pairs (beta : ℝ) (M : ℕ) (nmin n : ℤ) :
    (replaced nmin n ≠ replaced nmin (negIdx (Mesh.mk' beta .boson M false) n) ↔ 0 < nmin ∧ (n = nmin ∨ n = -nmin)) ∧
    (nmin ≤ 0 → ∀ (len : ℤ) (sh c : List ℕ) (dat : ℤ → List ℕ → ℂ) (tail : ℕ → List ℕ → ℂ) (N : ℕ),
      replaceByTail ⟨Mesh.mk' beta .boson M false, len, sh, dat⟩ tail (N + 2) nmin 0 c = none) := by
  constructor
  · have : negIdx (Mesh.mk' beta .boson M false) n = -n := by simp [negIdx, Freq.neg, Mesh.mk']
    rw [this, ne_eq, Bool.eq_iff_iff]
    simp only [replaced, Bool.or_eq_true, decide_eq_true_eq]
    omega
  · intro h len sh c dat tail N
    unfold replaceByTail
    rw [if_pos (by simp [replaced]; omega)]
    have : Freq.value ⟨0, beta, .boson⟩ = 0 := by
      apply Complex.ext <;> simp [Freq.value, Stat.toInt]
    simp only [Mesh.mk', this]
    exact tailEval_zero _ N

/-! ### C82 -/

/-- **C82, fermions.** The restricted view of a full fermionic function is the function on the smaller mesh: same
temperature, same statistics, `n_max` frequencies of each sign, and the same value at every frequency. -/
theorem C82_restricted_partial {K : Type} (beta : ℝ) (N nmax : ℕ) (h1 : nmax ≤ N) (sh : List ℕ) (dat : ℤ → List ℕ → K) :
    ∃ v, restrictedView ⟨Mesh.mk' beta .fermion N false, (Mesh.mk' beta .fermion N false).size, sh, dat⟩ nmax = .ok v ∧
      v.mesh = Mesh.mk' beta .fermion nmax false ∧ v.len = v.mesh.size ∧ v.shape = sh ∧
      ∀ n, v.mesh.valid n = true → v.dat (v.mesh.toDataIndex n) = dat ((Mesh.mk' beta .fermion N false).toDataIndex n) := by
  unfold restrictedView
  simp only [Mesh.mk', Mesh.toDataIndex, Mesh.size, Bool.false_eq_true, if_false, if_true]
  rw [if_pos (by omega)]
  refine ⟨_, rfl, rfl, by simp only; ring, rfl, ?_⟩
  intro n _
  simp only
  congr 1
  ring

example : ∃ v, restrictedView (K := ℤ) ⟨Mesh.mk' 1 .fermion 3 false, 6, [], fun d _ => d⟩ 2 = .ok v ∧
    (List.map (fun n : ℤ => v.dat (v.mesh.toDataIndex n) []) [-2, -1, 0, 1]) = [1, 2, 3, 4] := ⟨_, rfl, by decide⟩

/-- **C82 fails for bosons**: the mesh of the view is fermionic, so its points are different frequencies from the ones the
data belong to, and with `n_max = n_iw` the view starts one row before the array. -/
theorem C82_bosons (beta : ℝ) (hb : 0 < beta) (sh : List ℕ) {K : Type} (dat : ℤ → List ℕ → K) :
    (∃ v, restrictedView ⟨Mesh.mk' beta .boson 3 false, 5, sh, dat⟩ 2 = .ok v ∧ v.dat (v.mesh.toDataIndex 1) = dat ((Mesh.mk' beta .boson 3 false).toDataIndex 1) ∧
      v.mesh.stat = .fermion ∧ Freq.value ⟨1, beta, v.mesh.stat⟩ ≠ Freq.value ⟨1, beta, .boson⟩) ∧
    (∀ N : ℕ, 1 ≤ N → (match restrictedView ⟨Mesh.mk' beta .boson N false, (Mesh.mk' beta .boson N false).size, sh, dat⟩ N with | .undef => True | _ => False)) := by
  constructor
  · refine ⟨⟨Mesh.mk' beta .fermion 2 false, 4, sh, fun d => dat (0 + d)⟩, ?_, ?_, ?_, ?_⟩
    · unfold restrictedView
      simp only [Mesh.mk', Mesh.toDataIndex, Bool.false_eq_true, if_false, if_true, reduceCtorEq]
      rw [if_pos (by norm_num)]
      norm_num
    · simp [Mesh.toDataIndex, Mesh.mk']
    · rfl
    · intro h
      have := congrArg Complex.im h
      simp only [Freq.value, Stat.toInt] at this
      have hp := Real.pi_pos
      simp only [Mesh.mk'] at this
      field_simp at this
      norm_num at this
  · intro N hN
    unfold restrictedView
    simp only [Mesh.mk', Mesh.toDataIndex, Mesh.size, Bool.false_eq_true, if_false, if_true, reduceCtorEq]
    rw [if_neg (by omega)]
    trivial

end Verif.ImFreq
