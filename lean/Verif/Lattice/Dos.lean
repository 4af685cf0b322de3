import Verif.Lattice.Grid
import Mathlib.Algebra.BigOperators.Fin
import Mathlib.Algebra.Order.BigOperators.Group.Finset
import Mathlib.Algebra.BigOperators.Pi
import Mathlib.Algebra.BigOperators.Ring.Finset
import Mathlib.Algebra.BigOperators.Field
import Mathlib.Algebra.BigOperators.Intervals

/-!
# Properties C79, C80, C81: densities of states and energies on paths

Source: `/repo/c++/triqs/lattice/tight_binding.cpp:59-240`.

Simplifications: `double` is an ordered field with floor; the conversion `int(x)` truncates and `int` is
unbounded; the eigenvalue solver is a parameter. Conversions of a quotient by zero to `int`, extrema of
empty arrays and accesses outside of arrays are undefined (`none`).
-/

namespace Verif.Dos
open Verif.Grid

/-! ## Model -/

section
variable {K : Type} [Field K] [LinearOrder K] [FloorRing K]

/-- `int(x)` -/
def toInt (x : K) : ℤ := if 0 ≤ x then ⌊x⌋ else -⌊-x⌋

/-- one datum of the binning loops, tight_binding.cpp:98-100 and 188-190: `a = int((e - emin) / deps)`,
`if (a == neps) a--`, `rho(a) += w` -/
def binOne {W : Type} [Add W] (emin deps : K) (neps : ℕ) (rho : ℕ → W) (e : K) (w : W) : Option (ℕ → W) :=
  if deps = 0 then none
  else
    let a := toInt ((e - emin) / deps)
    let a := if a = neps then a - 1 else a
    if 0 ≤ a ∧ a < neps then some (fun i => if i = a.toNat then rho i + w else rho i) else none

/-- the binning loop over a list of energies and weights -/
def binAll {W : Type} [Add W] (emin deps : K) (neps : ℕ) : (ℕ → W) → List (K × W) → Option (ℕ → W)
  | rho, [] => some rho
  | rho, (e, w) :: l => (binOne emin deps neps rho e w).bind (fun rho => binAll emin deps neps rho l)

/-- `max_element` / `min_element` of a non-empty array -/
def maxEl : List K → Option K
  | [] => none
  | x :: l => some (l.foldl max x)
def minEl : List K → Option K
  | [] => none
  | x :: l => some (l.foldl min x)

/-- `dos`, tight_binding.cpp:59-105. `h0 p`: the real part of the element (0,0) of the Hamiltonian at `p`;
`eig p`: eigenvalues and eigenvectors (`(eig p).2 k l`: real and imaginary part of component `k` of vector
`l`). Result: the energies, the density at energy `i` for orbital `k`. -/
def dos (h0 : K × K × K → K) (eig : K × K × K → (ℕ → K) × (ℕ → ℕ → K × K)) (norb dim nkpts neps fuel : ℕ) :
    Option ((ℕ → K) × (ℕ → ℕ → K)) :=
  let g : Gen K := Gen.mk' dim nkpts
  let size := g.size.toNat
  (g.visits fuel).bind fun pts =>
  if pts.length > size then none
  else
    let es : List ((ℕ → K) × (ℕ → ℕ → K × K)) := pts.map (fun p => if norb = 1 then (fun _ => h0 p.2, fun _ _ => (1, 0)) else eig p.2)
    let all : List (K × (ℕ → K)) := (List.range norb).flatMap (fun l => es.map (fun ev =>
      (ev.1 l, fun k => (ev.2 k l).1 * (ev.2 k l).1 + (ev.2 k l).2 * (ev.2 k l).2)))
    (maxEl (all.map Prod.fst)).bind fun emax =>
    (minEl (all.map Prod.fst)).bind fun emin =>
    if neps = 0 then none
    else
      let deps : K := (emax - emin) / neps
      (binAll emin deps neps (fun _ _ => 0) all).map fun rho =>
        (fun i => emin + (i + 1 / 2) * deps, fun i k => rho i k / (size * deps))

/-- the points of one triangle, tight_binding.cpp:141-173: the points and the weight -/
def triPoints (a b c : K × K) (ndiv : ℕ) : List ((K × K) × K) :=
  let g : K × K := (((a.1 + b.1 + c.1) / 3 - a.1) / ndiv, ((a.2 + b.2 + c.2) / 3 - a.2) / ndiv)
  let area : K := |1 / 2 * ((b.1 - a.1) * (c.2 - a.2) - (b.2 - a.2) * (c.1 - a.1)) / (ndiv * ndiv)|
  (List.range ndiv).flatMap fun (i : ℕ) =>
    let s : K := i / ndiv
    (List.range (ndiv - i)).flatMap fun (j : ℕ) =>
      let t : K := j / ndiv
      (List.range 2).flatMap fun (k : ℕ) =>
        let rv : K × K := (a.1 + s * (b.1 - a.1) + t * (c.1 - a.1) + (k + 1) * g.1, a.2 + s * (b.2 - a.2) + t * (c.2 - a.2) + (k + 1) * g.2)
        if k = 0 ∨ j < ndiv - i - 1 then [(rv, area)] else []

/-- `dos_patch`, tight_binding.cpp:109-195, for a two-dimensional lattice; `en p`: real part of the element
(0,0) of the Hamiltonian at `p`. Energies: `none` for 0/0. -/
def dosPatch (en : K × K → K) (tris : List ((K × K) × (K × K) × (K × K))) (neps ndiv : ℕ) : Option ((ℕ → Option K) × (ℕ → K)) :=
  let pts := tris.flatMap (fun t => triPoints t.1 t.2.1 t.2.2 ndiv)
  if pts.length ≠ tris.length * ndiv * ndiv then none
  else if neps = 0 then none
  else
    let all := pts.map (fun p => (en p.1, p.2))
    let emax : K := (all.map Prod.fst).foldl (fun m e => if e > m then e else m) (-100000)
    let emin : K := (all.map Prod.fst).foldl (fun m e => if e < m then e else m) 100000
    let deps : K := (emax - emin) / neps
    (binAll emin deps neps (fun _ => (0 : K)) all).map fun rho =>
      (fun i => if neps = 1 then none else some (emin + i / ((neps : K) - 1) * (emax - emin)), fun i => rho i / deps)

end

/-- the loop of `energies_on_bz_path`, `energy_matrix_on_bz_path`, tight_binding.cpp:205-222: the arguments of
the Hamiltonian; `k += dk` after each point -/
def pathLoop {V : Type} [Add V] (dk : V) : ℕ → V → List V
  | 0, _ => []
  | n + 1, k => k :: pathLoop dk n (k + dk)

/-- the points of a path from `K1` to `K2` -/
def path {K V : Type} [Field K] [AddCommGroup V] [Module K V] (K1 K2 : V) (n : ℕ) : List V :=
  pathLoop ((1 / (n : K)) • (K2 - K1)) n K1

/-- `energies_on_bz_grid`, tight_binding.cpp:225-233: columns by index; `none`: a column outside the array -/
def onGrid {K R : Type} [Field K] (f : K × K × K → R) (dim nkpts fuel : ℕ) : Option (List (ℤ × R)) :=
  let g : Gen K := Gen.mk' dim nkpts
  (g.visits fuel).bind fun pts =>
  if pts.all (fun p => decide (0 ≤ p.1 ∧ p.1 < g.size)) then some (pts.map (fun p => (p.1, f p.2))) else none

/-! ## Specification -/

section
variable {K : Type} [Field K] [LinearOrder K]

/-- bin `i` of `n` bins on `[emin, emax]`: half open, the last one closed -/
def InBin (emin emax : K) (n i : ℕ) (e : K) : Prop :=
  let d := (emax - emin) / n;
  emin + i * d ≤ e ∧ (e < emin + (i + 1) * d ∨ i + 1 = n ∧ e = emax)

instance (emin emax : K) (n i : ℕ) (e : K) : Decidable (InBin emin emax n i e) := by unfold InBin; infer_instance

end

section
variable {K : Type} [Field K]

/-- point number `t` of the grid of dimension `dim` with `n` points per direction -/
def gridPt (dim n t : ℕ) : K × K × K :=
  let e := extents dim n;
  centre e.1 e.2.1 e.2.2 (t % e.1) (t / e.1 % e.2.1) (t / e.1 / e.2.1)

/-- energy `l` at the point `p`, and weight of orbital `k` in its eigenvector -/
def energy (h0 : K × K × K → K) (eig : K × K × K → (ℕ → K) × (ℕ → ℕ → K × K)) (norb : ℕ) (l : ℕ) (p : K × K × K) : K :=
  if norb = 1 then h0 p else (eig p).1 l
def weight (eig : K × K × K → (ℕ → K) × (ℕ → ℕ → K × K)) (norb : ℕ) (k l : ℕ) (p : K × K × K) : K :=
  if norb = 1 then 1 else ((eig p).2 k l).1 ^ 2 + ((eig p).2 k l).2 ^ 2

end

section
variable {K : Type} [Field K] [LinearOrder K]

abbrev Tri (K : Type) := (K × K) × (K × K) × (K × K)

/-- area of a triangle -/
def Tri.area (t : Tri K) : K :=
  |(t.2.1.1 - t.1.1) * (t.2.2.2 - t.1.2) - (t.2.1.2 - t.1.2) * (t.2.2.1 - t.1.1)| / 2
/-- centre of gravity -/
def Tri.centroid (t : Tri K) : K × K := ((t.1.1 + t.2.1.1 + t.2.2.1) / 3, (t.1.2 + t.2.1.2 + t.2.2.2) / 3)
/-- `p` is a convex combination of the corners -/
def Tri.Contains (t : Tri K) (p : K × K) : Prop :=
  ∃ u v w : K, 0 ≤ u ∧ 0 ≤ v ∧ 0 ≤ w ∧ u + v + w = 1 ∧
    p = (u * t.1.1 + v * t.2.1.1 + w * t.2.2.1, u * t.1.2 + v * t.2.1.2 + w * t.2.2.2)

/-- node `(i, j)` of the division of the sides of a triangle in `n` parts -/
def node (t : Tri K) (n i j : ℕ) : K × K :=
  (t.1.1 + i / n * (t.2.1.1 - t.1.1) + j / n * (t.2.2.1 - t.1.1), t.1.2 + i / n * (t.2.1.2 - t.1.2) + j / n * (t.2.2.2 - t.1.2))
/-- the small triangles of the two orientations -/
def upTri (t : Tri K) (n i j : ℕ) : Tri K := (node t n i j, node t n (i + 1) j, node t n i (j + 1))
def downTri (t : Tri K) (n i j : ℕ) : Tri K := (node t n (i + 1) j, node t n i (j + 1), node t n (i + 1) (j + 1))

/-- all small triangles -/
def subTris (t : Tri K) (n : ℕ) : List (Tri K) :=
  (List.range n).flatMap fun i => (List.range (n - i)).flatMap fun j =>
    if i + j + 1 < n then [upTri t n i j, downTri t n i j] else [upTri t n i j]

end

/-! ## Proofs -/

section
variable {K : Type} [Field K] [LinearOrder K] [IsStrictOrderedRing K] [FloorRing K]

theorem toInt_nonneg {x : K} (h : 0 ≤ x) : toInt x = ⌊x⌋ := by simp [toInt, h]

/-- every energy of the range is put in its bin -/
theorem binOne_spec {W : Type} [AddZeroClass W] {emin emax : K} {n : ℕ} (hn : 0 < n) (hlt : emin < emax) (rho : ℕ → W) {e : K}
    (h1 : emin ≤ e) (h2 : e ≤ emax) (w : W) :
    binOne emin ((emax - emin) / n) n rho e w = some (fun i => if i < n ∧ InBin emin emax n i e then rho i + w else rho i) := by
  have hn' : (0 : K) < n := by exact_mod_cast hn
  have hd : 0 < (emax - emin) / n := div_pos (by linarith) hn'
  set d := (emax - emin) / n with hdd
  have hdn : d * n = emax - emin := by rw [hdd]; field_simp
  unfold binOne
  rw [if_neg hd.ne']
  have hx0 : 0 ≤ (e - emin) / d := div_nonneg (by linarith) hd.le
  simp only [toInt_nonneg hx0]
  set x := (e - emin) / d with hx
  have hxe : x * d = e - emin := by rw [hx]; field_simp
  have hxn : x ≤ n := by
    have : x * d ≤ n * d := by rw [hxe]; linarith
    exact le_of_mul_le_mul_right this hd
  have hf0 : 0 ≤ ⌊x⌋ := Int.floor_nonneg.mpr hx0
  have hfn : ⌊x⌋ ≤ n := by
    have : (⌊x⌋ : K) ≤ n := (Int.floor_le x).trans hxn
    exact_mod_cast this
  by_cases hc : ⌊x⌋ = n
  · rw [if_pos hc, if_pos (by omega)]
    have hxn' : x = n := by
      have : (n : K) ≤ x := by
        have := Int.floor_le x
        rw [hc] at this
        exact_mod_cast this
      exact le_antisymm hxn this
    have hee : e = emax := by
      have := hxe
      rw [hxn'] at this
      linarith
    congr 1
    funext i
    have : (⌊x⌋ - 1).toNat = n - 1 := by omega
    rw [this]
    by_cases hi : i = n - 1
    · rw [if_pos hi, if_pos]
      refine ⟨by omega, ?_⟩
      unfold InBin
      refine ⟨?_, Or.inr ⟨by omega, hee⟩⟩
      rw [hee, ← hdd]
      have hi' : (i : K) ≤ n := by exact_mod_cast (by omega : i ≤ n)
      nlinarith
    · rw [if_neg hi, if_neg]
      rintro ⟨hin, h3, h4 | h4⟩
      · rw [hee, ← hdd] at h4
        have : (i + 1 : K) ≤ n := by exact_mod_cast (by omega : i + 1 ≤ n)
        nlinarith
      · omega
  · rw [if_neg hc, if_pos (by omega)]
    congr 1
    funext i
    have hxlt : x < n := by
      rcases lt_or_eq_of_le hxn with h | h
      · exact h
      · exfalso
        apply hc
        rw [h]
        simp
    have hfl : ∀ i : ℕ, i = ⌊x⌋.toNat ↔ (i : K) ≤ x ∧ x < i + 1 := by
      intro i
      have : i = ⌊x⌋.toNat ↔ ⌊x⌋ = (i : ℤ) := by omega
      rw [this, Int.floor_eq_iff]
      push_cast
      rfl
    have hiff : i = ⌊x⌋.toNat ↔ (i < n ∧ InBin emin emax n i e) := by
      rw [hfl]
      unfold InBin
      simp only [← hdd]
      have hee : e ≠ emax := by
        intro he
        have : x * d = n * d := by rw [hxe, he]; linarith
        have := mul_right_cancel₀ hd.ne' this
        linarith
      constructor
      · rintro ⟨h3, h4⟩
        refine ⟨?_, ?_, Or.inl ?_⟩
        · have : (i : K) < n := lt_of_le_of_lt h3 hxlt
          exact_mod_cast this
        · nlinarith
        · nlinarith
      · rintro ⟨_, h3, h4 | h4⟩
        · constructor
          · have : (i : K) * d ≤ x * d := by linarith
            exact le_of_mul_le_mul_right this hd
          · have : x * d < (i + 1) * d := by linarith
            exact lt_of_mul_lt_mul_right this hd.le
        · exact absurd h4.2 hee
    by_cases hi : i = ⌊x⌋.toNat
    · rw [if_pos hi, if_pos (hiff.mp hi)]
    · rw [if_neg hi, if_neg (fun h => hi (hiff.mpr h))]

/-- each energy of the range is in exactly one bin -/
theorem inBin_unique {emin emax : K} {n : ℕ} (hn : 0 < n) (hlt : emin < emax) {e : K} (h1 : emin ≤ e) (h2 : e ≤ emax) :
    ∃! i, i < n ∧ InBin emin emax n i e := by
  have := binOne_spec (W := ℕ) hn hlt (fun _ => 0) h1 h2 1
  unfold binOne at this
  split at this
  · simp at this
  · simp only at this
    generalize (if toInt ((e - emin) / ((emax - emin) / n)) = n then toInt ((e - emin) / ((emax - emin) / n)) - 1
        else toInt ((e - emin) / ((emax - emin) / n))) = a at this
    split at this
    · rw [Option.some.injEq] at this
      refine ⟨a.toNat, ?_, ?_⟩
      · have h3 := congrFun this a.toNat
        beta_reduce at h3
        rw [if_pos rfl] at h3
        by_contra hc
        rw [if_neg hc] at h3
        simp at h3
      · intro j hj
        have h3 := congrFun this j
        beta_reduce at h3
        rw [if_pos hj] at h3
        by_contra hc
        rw [if_neg hc] at h3
        simp at h3
    · simp at this

theorem binAll_spec {W : Type} [AddCommMonoid W] {emin emax : K} {n : ℕ} (hn : 0 < n) (hlt : emin < emax) (l : List (K × W)) :
    ∀ (rho : ℕ → W), (∀ x ∈ l, emin ≤ x.1 ∧ x.1 ≤ emax) →
    binAll emin ((emax - emin) / n) n rho l =
      some (fun i => rho i + (l.map (fun x => if i < n ∧ InBin emin emax n i x.1 then x.2 else 0)).sum) := by
  induction l with
  | nil => intro rho _; simp [binAll]
  | cons x l ih =>
    intro rho h
    obtain ⟨e, w⟩ := x
    have hx := h (e, w) (by simp)
    unfold binAll
    rw [binOne_spec hn hlt rho hx.1 hx.2, Option.bind_some, ih _ (fun x hx => h x (by simp [hx]))]
    congr 1
    funext i
    simp only [List.map_cons, List.sum_cons]
    split
    · rw [add_assoc]
    · rw [zero_add]

/-- the histogram contains every weight once -/
theorem sum_bins {W : Type} [AddCommMonoid W] {emin emax : K} {n : ℕ} (hn : 0 < n) (hlt : emin < emax) (l : List (K × W))
    (h : ∀ x ∈ l, emin ≤ x.1 ∧ x.1 ≤ emax) :
    ∑ i ∈ Finset.range n, (l.map (fun x => if i < n ∧ InBin emin emax n i x.1 then x.2 else 0)).sum = (l.map Prod.snd).sum := by
  induction l with
  | nil => simp
  | cons x l ih =>
    simp only [List.map_cons, List.sum_cons]
    rw [Finset.sum_add_distrib, ih (fun y hy => h y (by simp [hy]))]
    congr 1
    obtain ⟨i0, hi0, huniq⟩ := inBin_unique hn hlt (h x (by simp)).1 (h x (by simp)).2
    rw [Finset.sum_eq_single i0]
    · rw [if_pos hi0]
    · intro j hj hne
      rw [if_neg]
      intro hc
      exact hne (huniq j hc)
    · intro hc
      exact absurd (Finset.mem_range.mpr hi0.1) hc

theorem maxEl_spec {l : List K} {m : K} (h : maxEl l = some m) : m ∈ l ∧ ∀ x ∈ l, x ≤ m := by
  cases l with
  | nil => simp [maxEl] at h
  | cons x l =>
    simp only [maxEl, Option.some.injEq] at h
    have : ∀ (l : List K) (x : K), (l.foldl max x = x ∨ l.foldl max x ∈ l) ∧ x ≤ l.foldl max x ∧ ∀ y ∈ l, y ≤ l.foldl max x := by
      intro l
      induction l with
      | nil => intro x; simp
      | cons a l ih =>
        intro x
        obtain ⟨h1, h2, h3⟩ := ih (max x a)
        simp only [List.foldl_cons]
        refine ⟨?_, (le_max_left _ _).trans h2, ?_⟩
        · rcases h1 with h1 | h1
          · rcases max_choice x a with h4 | h4
            · left; rw [h1, h4]
            · right; rw [h1, h4]; simp
          · right; exact List.mem_cons_of_mem _ h1
        · intro y hy
          rcases List.mem_cons.mp hy with rfl | hy
          · exact (le_max_right _ _).trans h2
          · exact h3 y hy
    obtain ⟨h1, h2, h3⟩ := this l x
    rw [h] at h1 h2 h3
    constructor
    · rcases h1 with rfl | h1
      · simp
      · exact List.mem_cons_of_mem _ h1
    · intro y hy
      rcases List.mem_cons.mp hy with rfl | hy
      · exact h2
      · exact h3 y hy

theorem minEl_spec {l : List K} {m : K} (h : minEl l = some m) : m ∈ l ∧ ∀ x ∈ l, m ≤ x := by
  cases l with
  | nil => simp [minEl] at h
  | cons x l =>
    simp only [minEl, Option.some.injEq] at h
    have : ∀ (l : List K) (x : K), (l.foldl min x = x ∨ l.foldl min x ∈ l) ∧ l.foldl min x ≤ x ∧ ∀ y ∈ l, l.foldl min x ≤ y := by
      intro l
      induction l with
      | nil => intro x; simp
      | cons a l ih =>
        intro x
        obtain ⟨h1, h2, h3⟩ := ih (min x a)
        simp only [List.foldl_cons]
        refine ⟨?_, h2.trans (min_le_left _ _), ?_⟩
        · rcases h1 with h1 | h1
          · rcases min_choice x a with h4 | h4
            · left; rw [h1, h4]
            · right; rw [h1, h4]; simp
          · right; exact List.mem_cons_of_mem _ h1
        · intro y hy
          rcases List.mem_cons.mp hy with rfl | hy
          · exact h2.trans (min_le_right _ _)
          · exact h3 y hy
    obtain ⟨h1, h2, h3⟩ := this l x
    rw [h] at h1 h2 h3
    constructor
    · rcases h1 with rfl | h1
      · simp
      · exact List.mem_cons_of_mem _ h1
    · intro y hy
      rcases List.mem_cons.mp hy with rfl | hy
      · exact h2
      · exact h3 y hy

theorem sum_flatMap_range {A W : Type} [AddCommMonoid W] (n : ℕ) (f : ℕ → List A) (g : A → W) :
    (((List.range n).flatMap f).map g).sum = ∑ l ∈ Finset.range n, ((f l).map g).sum := by
  induction n with
  | zero => simp
  | succ n ih =>
    rw [List.range_succ, List.flatMap_append, List.map_append, List.sum_append, ih, Finset.sum_range_succ]
    simp

theorem sum_map_range {W : Type} [AddCommMonoid W] (n : ℕ) (f : ℕ → W) : ((List.range n).map f).sum = ∑ l ∈ Finset.range n, f l := by
  induction n with
  | zero => simp
  | succ n ih => rw [List.range_succ, List.map_append, List.sum_append, ih, Finset.sum_range_succ]; simp

theorem list_sum_apply (l : List (ℕ → K)) (k : ℕ) : l.sum k = (l.map (fun f => f k)).sum := by
  induction l with
  | nil => simp
  | cons x l ih => simp [ih]

/-- **C79.** For every lattice dimension, grid, number of bands and bins: with `emin`, `emax` the smallest and largest
eigenvalue on the grid, `dos` returns the centres of `neps` equal bins and, for each orbital, the sum of the weights of
that orbital in the eigenvectors whose energy is in the bin, normalised such that the integral over energy is 1. If all
eigenvalues are equal the function divides zero by zero and converts the result to an integer. -/
theorem C79_dos (h0 : K × K × K → K) (eig : K × K × K → (ℕ → K) × (ℕ → ℕ → K × K)) {norb dim nkpts neps fuel : ℕ}
    (hnorb : 1 ≤ norb) (h1 : 1 ≤ dim) (h3 : dim ≤ 3) (hn : 1 ≤ nkpts) (he : 1 ≤ neps) (hf : nkpts ^ dim < fuel) :
    ∃ emin emax : K,
      (∃ l t, l < norb ∧ t < nkpts ^ dim ∧ energy h0 eig norb l (gridPt dim nkpts t) = emin) ∧
      (∃ l t, l < norb ∧ t < nkpts ^ dim ∧ energy h0 eig norb l (gridPt dim nkpts t) = emax) ∧
      (∀ l t, l < norb → t < nkpts ^ dim → emin ≤ energy h0 eig norb l (gridPt dim nkpts t) ∧ energy h0 eig norb l (gridPt dim nkpts t) ≤ emax) ∧
      (emin = emax → dos h0 eig norb dim nkpts neps fuel = none) ∧
      (emin < emax → ∃ eps rho, dos h0 eig norb dim nkpts neps fuel = some (eps, rho) ∧
        (∀ i, eps i = emin + (i + 1 / 2) * ((emax - emin) / neps)) ∧
        (∀ i k, i < neps → rho i k * ((nkpts : K) ^ dim * ((emax - emin) / neps)) = ∑ l ∈ Finset.range norb, ∑ t ∈ Finset.range (nkpts ^ dim),
          if InBin emin emax neps i (energy h0 eig norb l (gridPt dim nkpts t)) then weight eig norb k l (gridPt dim nkpts t) else 0) ∧
        (∀ k, (norb ≠ 1 → ∀ t, t < nkpts ^ dim → ∑ l ∈ Finset.range norb, weight eig norb k l (gridPt dim nkpts t) = 1) →
          ∑ i ∈ Finset.range neps, rho i k * ((emax - emin) / neps) = 1)) := by
  set N := nkpts ^ dim with hN
  have hNpos : 0 < N := Nat.pow_pos hn
  have hv := visits_eq (K := K) dim nkpts hn h1 h3 fuel hf
  have hsize : (Gen.mk' (K := K) dim nkpts).size.toNat = N := by
    have hg := at_init (K := K) dim nkpts
    rw [Gen.size, hg.hNX, hg.hNY, hg.hNZ, hN, ← extents_size dim nkpts h1 h3]
    norm_cast
  set all : List (K × (ℕ → K)) := (List.range norb).flatMap (fun l => (List.range N).map (fun t =>
    (energy h0 eig norb l (gridPt dim nkpts t), fun k => weight eig norb k l (gridPt dim nkpts t)))) with hall
  have hmem : ∀ x, x ∈ all ↔ ∃ l t, l < norb ∧ t < N ∧ x = (energy h0 eig norb l (gridPt dim nkpts t), fun k => weight eig norb k l (gridPt dim nkpts t)) := by
    intro x
    rw [hall]
    simp only [List.mem_flatMap, List.mem_range, List.mem_map]
    constructor
    · rintro ⟨l, hl, t, ht, rfl⟩; exact ⟨l, t, hl, ht, rfl⟩
    · rintro ⟨l, t, hl, ht, rfl⟩; exact ⟨l, hl, t, ht, rfl⟩
  have hne : all ≠ [] := by
    intro hc
    have := (hmem _).mpr ⟨0, 0, hnorb, hNpos, rfl⟩
    rw [hc] at this
    simp at this
  obtain ⟨emax, hmax⟩ : ∃ m, maxEl (all.map Prod.fst) = some m := by
    cases h : all with
    | nil => exact absurd h hne
    | cons x l => exact ⟨_, rfl⟩
  obtain ⟨emin, hmin⟩ : ∃ m, minEl (all.map Prod.fst) = some m := by
    cases h : all with
    | nil => exact absurd h hne
    | cons x l => exact ⟨_, rfl⟩
  have hdos : dos h0 eig norb dim nkpts neps fuel = (binAll emin ((emax - emin) / neps) neps (fun _ _ => 0) all).map
      (fun rho => (fun i : ℕ => emin + (i + 1 / 2) * ((emax - emin) / neps), fun i k => rho i k / (N * ((emax - emin) / neps)))) := by
    unfold dos
    simp only [hv]
    have hall' : (List.range norb).flatMap (fun l => (((List.range N).map (fun t : ℕ => ((t : ℤ), (gridPt dim nkpts t : K × K × K)))).map
        (fun p => if norb = 1 then ((fun _ => h0 p.2, fun _ _ => (1, 0)) : (ℕ → K) × (ℕ → ℕ → K × K)) else eig p.2)).map
        (fun ev => (ev.1 l, fun k => (ev.2 k l).1 * (ev.2 k l).1 + (ev.2 k l).2 * (ev.2 k l).2))) = all := by
      rw [hall]
      congr 1
      funext l
      rw [List.map_map, List.map_map]
      apply List.map_congr_left
      intro t _
      simp only [Function.comp_apply, energy, weight]
      split
      · simp
      · simp only [sq]
    have hall2 := hall'
    unfold gridPt at hall2
    simp only [Option.bind_some, hsize, List.length_map, List.length_range, gt_iff_lt]
    rw [hall2, hmax, hmin]
    simp only [Option.bind_some]
    rw [if_neg (by omega), if_neg (by omega)]
  obtain ⟨hmax1, hmax2⟩ := maxEl_spec hmax
  obtain ⟨hmin1, hmin2⟩ := minEl_spec hmin
  have hrange : ∀ x ∈ all, emin ≤ x.1 ∧ x.1 ≤ emax := fun x hx =>
    ⟨hmin2 _ (List.mem_map_of_mem hx), hmax2 _ (List.mem_map_of_mem hx)⟩
  refine ⟨emin, emax, ?_, ?_, ?_, ?_, ?_⟩
  · obtain ⟨x, hx, hx'⟩ := List.mem_map.mp hmin1
    obtain ⟨l, t, hl, ht, rfl⟩ := (hmem x).mp hx
    exact ⟨l, t, hl, ht, hx'⟩
  · obtain ⟨x, hx, hx'⟩ := List.mem_map.mp hmax1
    obtain ⟨l, t, hl, ht, rfl⟩ := (hmem x).mp hx
    exact ⟨l, t, hl, ht, hx'⟩
  · intro l t hl ht
    exact hrange _ ((hmem _).mpr ⟨l, t, hl, ht, rfl⟩)
  · intro heq
    rw [hdos, heq]
    cases h : all with
    | nil => exact absurd h hne
    | cons x l => simp [binAll, binOne]
  · intro hlt
    rw [hdos, binAll_spec (by omega) hlt all _ hrange, Option.map_some]
    have hn' : (0 : K) < neps := by exact_mod_cast he
    have hd : 0 < (emax - emin) / neps := div_pos (by linarith) hn'
    have hN' : (0 : K) < N := by exact_mod_cast hNpos
    have hsum : ∀ i k, i < neps → ((0 : ℕ → K) + (all.map (fun x => if i < neps ∧ InBin emin emax neps i x.1 then x.2 else 0)).sum) k
        = ∑ l ∈ Finset.range norb, ∑ t ∈ Finset.range N,
          if InBin emin emax neps i (energy h0 eig norb l (gridPt dim nkpts t)) then weight eig norb k l (gridPt dim nkpts t) else 0 := by
      intro i k hi
      rw [zero_add, list_sum_apply, List.map_map, hall, sum_flatMap_range]
      apply Finset.sum_congr rfl
      intro l _
      rw [List.map_map, sum_map_range]
      apply Finset.sum_congr rfl
      intro t _
      simp only [Function.comp_apply, hi, true_and]
      split <;> rfl
    refine ⟨_, _, rfl, fun i => rfl, ?_, ?_⟩
    · intro i k hi
      have := hsum i k hi
      rw [← this]
      have hNc : (nkpts : K) ^ dim = N := by rw [hN]; push_cast; rfl
      rw [hNc]
      change _ / _ * _ = _
      rw [div_mul_cancel₀]
      · rfl
      · positivity
    · intro k hk
      have hs := congrFun (sum_bins (n := neps) (by omega) hlt all hrange) k
      have hw : ∑ l ∈ Finset.range norb, ∑ t ∈ Finset.range N, weight eig norb k l (gridPt dim nkpts t) = (N : K) := by
        rw [Finset.sum_comm]
        have : ∀ t ∈ Finset.range N, ∑ l ∈ Finset.range norb, weight eig norb k l (gridPt (K := K) dim nkpts t) = 1 := by
          intro t ht
          by_cases hno : norb = 1
          · simp [weight, hno]
          · exact hk hno t (Finset.mem_range.mp ht)
        rw [Finset.sum_congr rfl this]
        simp
      have hsnd : (all.map Prod.snd).sum k = (N : K) := by
        rw [list_sum_apply, List.map_map, hall, sum_flatMap_range, ← hw]
        apply Finset.sum_congr rfl
        intro l _
        rw [List.map_map, sum_map_range]
        rfl
      rw [hsnd, Finset.sum_apply] at hs
      have : ∀ i ∈ Finset.range neps, ((fun (_ : ℕ) => (0 : K)) + (all.map (fun x => if i < neps ∧ InBin emin emax neps i x.1 then x.2 else 0)).sum) k
          / (N * ((emax - emin) / neps)) * ((emax - emin) / neps) = (all.map (fun x => if i < neps ∧ InBin emin emax neps i x.1 then x.2 else 0)).sum k / N := by
        intro i _
        change (0 + (all.map (fun x => if i < neps ∧ InBin emin emax neps i x.1 then x.2 else 0)).sum k) / _ * _ = _
        rw [zero_add]
        field_simp
      change ∑ i ∈ Finset.range neps, ((fun (_ : ℕ) => (0 : K)) + (all.map (fun x => if i < neps ∧ InBin emin emax neps i x.1 then x.2 else 0)).sum) k
          / (N * ((emax - emin) / neps)) * ((emax - emin) / neps) = 1
      rw [Finset.sum_congr rfl this, ← Finset.sum_div, hs, div_self hN'.ne']

/-! ### C80 -/

omit [FloorRing K] in
theorem area_eq {t : Tri K} {n : ℕ} (hn : 1 ≤ n) :
    |1 / 2 * ((t.2.1.1 - t.1.1) * (t.2.2.2 - t.1.2) - (t.2.1.2 - t.1.2) * (t.2.2.1 - t.1.1)) / (n * n : K)| = t.area / (n * n) := by
  have hn' : (0 : K) < n := by exact_mod_cast hn
  rw [abs_div, abs_mul, Tri.area, abs_of_pos (by positivity : (0 : K) < n * n), abs_of_pos (by norm_num : (0 : K) < 1 / 2)]
  ring

omit [FloorRing K] in
theorem up_area (t : Tri K) {n : ℕ} (hn : 1 ≤ n) (i j : ℕ) : (upTri t n i j).area = t.area / (n * n) := by
  have hn' : (0 : K) < n := by exact_mod_cast hn
  rw [← area_eq hn]
  unfold Tri.area upTri node
  rw [← abs_of_pos (by norm_num : (0 : K) < 2), ← abs_div, abs_of_pos (by norm_num : (0 : K) < 2)]
  congr 1
  push_cast
  field_simp
  ring

omit [FloorRing K] in
theorem down_area (t : Tri K) {n : ℕ} (hn : 1 ≤ n) (i j : ℕ) : (downTri t n i j).area = t.area / (n * n) := by
  have hn' : (0 : K) < n := by exact_mod_cast hn
  rw [← area_eq hn, ← abs_neg]
  unfold Tri.area downTri node
  rw [← abs_of_pos (by norm_num : (0 : K) < 2), ← abs_div, abs_of_pos (by norm_num : (0 : K) < 2)]
  congr 1
  push_cast
  field_simp
  ring

/-- the points and weights of the code are the centres of gravity and the areas of the small triangles -/
theorem triPoints_eq (t : Tri K) {n : ℕ} (hn : 1 ≤ n) :
    triPoints t.1 t.2.1 t.2.2 n = (subTris t n).map (fun s => (s.centroid, s.area)) := by
  have hn' : (0 : K) < n := by exact_mod_cast hn
  unfold triPoints subTris
  rw [List.map_flatMap]
  apply List.flatMap_congr
  intro i hi
  rw [List.map_flatMap]
  apply List.flatMap_congr
  intro j hj
  have hi' := List.mem_range.mp hi
  have hj' := List.mem_range.mp hj
  have hup : (upTri t n i j).centroid = (t.1.1 + (i : K) / n * (t.2.1.1 - t.1.1) + j / n * (t.2.2.1 - t.1.1) + ((0 : ℕ) + 1) * (((t.1.1 + t.2.1.1 + t.2.2.1) / 3 - t.1.1) / n),
      t.1.2 + (i : K) / n * (t.2.1.2 - t.1.2) + j / n * (t.2.2.2 - t.1.2) + ((0 : ℕ) + 1) * (((t.1.2 + t.2.1.2 + t.2.2.2) / 3 - t.1.2) / n)) := by
    unfold upTri Tri.centroid node
    simp only [Prod.mk.injEq]
    push_cast
    constructor <;> field_simp <;> ring
  have hdown : (downTri t n i j).centroid = (t.1.1 + (i : K) / n * (t.2.1.1 - t.1.1) + j / n * (t.2.2.1 - t.1.1) + ((1 : ℕ) + 1) * (((t.1.1 + t.2.1.1 + t.2.2.1) / 3 - t.1.1) / n),
      t.1.2 + (i : K) / n * (t.2.1.2 - t.1.2) + j / n * (t.2.2.2 - t.1.2) + ((1 : ℕ) + 1) * (((t.1.2 + t.2.1.2 + t.2.2.2) / 3 - t.1.2) / n)) := by
    unfold downTri Tri.centroid node
    simp only [Prod.mk.injEq]
    push_cast
    constructor <;> field_simp <;> ring
  have h2 : List.range 2 = [0, 1] := rfl
  rw [h2]
  simp only [List.flatMap_cons, List.flatMap_nil, area_eq hn, true_or, if_true, one_ne_zero, false_or, List.append_nil, ← hup, ← hdown]
  by_cases hc : i + j + 1 < n
  · rw [if_pos hc, if_pos (by omega)]
    simp [up_area t hn, down_area t hn]
  · rw [if_neg hc, if_neg (by omega)]
    simp [up_area t hn]

omit [IsStrictOrderedRing K] [FloorRing K] in
theorem subTris_length (t : Tri K) (n : ℕ) : (subTris t n).length = n * n := by
  have h1 : ∀ i, i < n → ((List.range (n - i)).flatMap fun j =>
      if i + j + 1 < n then [upTri t n i j, downTri t n i j] else [upTri t n i j]).length = 2 * (n - 1 - i) + 1 := by
    intro i hi
    rw [List.length_flatMap, sum_map_range]
    obtain ⟨m, hm⟩ : ∃ m, n - i = m + 1 := ⟨n - i - 1, by omega⟩
    rw [hm, Finset.sum_range_succ, if_neg (by omega)]
    have : ∀ j ∈ Finset.range m, (if i + j + 1 < n then [upTri t n i j, downTri t n i j] else [upTri t n i j]).length = 2 := by
      intro j hj
      have := Finset.mem_range.mp hj
      rw [if_pos (by omega)]
      rfl
    rw [Finset.sum_congr rfl this]
    simp
    omega
  unfold subTris
  rw [List.length_flatMap, sum_map_range, Finset.sum_congr rfl (fun i hi => h1 i (Finset.mem_range.mp hi))]
  rw [Finset.sum_range_reflect (fun i => 2 * i + 1) n]
  clear h1
  induction n with
  | zero => simp
  | succ n ih => rw [Finset.sum_range_succ, ih]; ring

omit [IsStrictOrderedRing K] [FloorRing K] in
theorem mem_subTris (t : Tri K) (n : ℕ) (s : Tri K) :
    s ∈ subTris t n ↔ (∃ i j, i + j < n ∧ s = upTri t n i j) ∨ (∃ i j, i + j + 1 < n ∧ s = downTri t n i j) := by
  unfold subTris
  simp only [List.mem_flatMap, List.mem_range]
  constructor
  · rintro ⟨i, hi, j, hj, hs⟩
    split at hs
    · rename_i hc
      simp only [List.mem_cons, List.not_mem_nil, or_false] at hs
      rcases hs with rfl | rfl
      · exact Or.inl ⟨i, j, by omega, rfl⟩
      · exact Or.inr ⟨i, j, hc, rfl⟩
    · simp only [List.mem_cons, List.not_mem_nil, or_false] at hs
      exact Or.inl ⟨i, j, by omega, hs⟩
  · rintro (⟨i, j, h, rfl⟩ | ⟨i, j, h, rfl⟩)
    · refine ⟨i, by omega, j, by omega, ?_⟩
      split <;> simp
    · refine ⟨i, by omega, j, by omega, ?_⟩
      rw [if_pos h]
      simp

/-- the small triangles cover the triangle -/
theorem subTris_cover (t : Tri K) {n : ℕ} (hn : 1 ≤ n) {p : K × K} (hp : t.Contains p) : ∃ s ∈ subTris t n, s.Contains p := by
  have hn' : (0 : K) < n := by exact_mod_cast hn
  obtain ⟨u, v, w, hu, hv, hw, huvw, rfl⟩ := hp
  have hx0 : 0 ≤ v * n := by positivity
  have hy0 : 0 ≤ w * n := by positivity
  have hxy : v * n + w * n ≤ n := by nlinarith
  obtain ⟨i, hi1, hi2⟩ : ∃ i : ℕ, (i : K) ≤ v * n ∧ v * n < i + 1 := by
    refine ⟨⌊v * n⌋.toNat, ?_, ?_⟩
    · have : ((⌊v * n⌋.toNat : ℤ) : K) ≤ v * n := by rw [Int.toNat_of_nonneg (Int.floor_nonneg.mpr hx0)]; exact Int.floor_le _
      exact_mod_cast this
    · have : v * n < ((⌊v * n⌋.toNat : ℤ) : K) + 1 := by rw [Int.toNat_of_nonneg (Int.floor_nonneg.mpr hx0)]; exact Int.lt_floor_add_one _
      exact_mod_cast this
  obtain ⟨j, hj1, hj2⟩ : ∃ j : ℕ, (j : K) ≤ w * n ∧ w * n < j + 1 := by
    refine ⟨⌊w * n⌋.toNat, ?_, ?_⟩
    · have : ((⌊w * n⌋.toNat : ℤ) : K) ≤ w * n := by rw [Int.toNat_of_nonneg (Int.floor_nonneg.mpr hy0)]; exact Int.floor_le _
      exact_mod_cast this
    · have : w * n < ((⌊w * n⌋.toNat : ℤ) : K) + 1 := by rw [Int.toNat_of_nonneg (Int.floor_nonneg.mpr hy0)]; exact Int.lt_floor_add_one _
      exact_mod_cast this
  have hu' : u = 1 - v - w := by linarith
  by_cases hc : v * n - i + (w * n - j) ≤ 1
  · by_cases hij : i + j < n
    · refine ⟨upTri t n i j, (mem_subTris _ _ _).mpr (Or.inl ⟨i, j, hij, rfl⟩), 1 - (v * n - i) - (w * n - j), v * n - i, w * n - j,
        by linarith, by linarith, by linarith, by ring, ?_⟩
      simp only [upTri, node, Prod.mk.injEq, hu']
      push_cast
      constructor <;> field_simp <;> ring
    · have hij' : (n : K) ≤ i + j := by exact_mod_cast not_lt.mp hij
      have ei : v * n = i := by linarith
      have ej : w * n = j := by linarith
      have en : i + j = n := by
        have : (i + j : K) = n := by linarith
        exact_mod_cast this
      have hv' : v = i / n := by rw [← ei]; field_simp
      have hw' : w = j / n := by rw [← ej]; field_simp
      rcases Nat.eq_zero_or_pos i with h0 | h0
      · obtain ⟨m, rfl⟩ : ∃ m, j = m + 1 := ⟨j - 1, by omega⟩
        refine ⟨upTri t n i m, (mem_subTris _ _ _).mpr (Or.inl ⟨i, m, by omega, rfl⟩), 0, 0, 1, le_refl _, le_refl _, zero_le_one, by ring, ?_⟩
        simp only [upTri, node, Prod.mk.injEq, hu', hv', hw']
        push_cast
        constructor <;> ring
      · obtain ⟨m, rfl⟩ : ∃ m, i = m + 1 := ⟨i - 1, by omega⟩
        refine ⟨upTri t n m j, (mem_subTris _ _ _).mpr (Or.inl ⟨m, j, by omega, rfl⟩), 0, 1, 0, le_refl _, zero_le_one, le_refl _, by ring, ?_⟩
        simp only [upTri, node, Prod.mk.injEq, hu', hv', hw']
        push_cast
        constructor <;> ring
  · have hij : i + j + 1 < n := by
      have : (i + j + 1 : K) < n := by linarith
      exact_mod_cast this
    refine ⟨downTri t n i j, (mem_subTris _ _ _).mpr (Or.inr ⟨i, j, hij, rfl⟩), 1 - (w * n - j), 1 - (v * n - i), v * n - i + (w * n - j) - 1,
      by linarith, by linarith, by linarith, by ring, ?_⟩
    simp only [downTri, node, Prod.mk.injEq, hu']
    push_cast
    constructor <;> field_simp <;> ring

omit [FloorRing K] in
theorem subTris_area (t : Tri K) {n : ℕ} (hn : 1 ≤ n) : ((subTris t n).map Tri.area).sum = t.area := by
  have hn' : (0 : K) < n := by exact_mod_cast hn
  have h1 : ∀ s ∈ subTris t n, s.area = t.area / (n * n) := by
    intro s hs
    rcases (mem_subTris t n s).mp hs with ⟨i, j, _, rfl⟩ | ⟨i, j, _, rfl⟩
    · exact up_area t hn i j
    · exact down_area t hn i j
  rw [List.map_congr_left h1, List.map_const', List.sum_replicate, subTris_length, nsmul_eq_mul]
  push_cast
  field_simp

/-- **C80, points.** The energies are evaluated at the centres of gravity of `ndiv²` small triangles, weighted by their
areas; the small triangles all have the same area, cover the triangle and their areas add up to its area. -/
theorem C80_points (t : Tri K) {n : ℕ} (hn : 1 ≤ n) :
    ∃ subs : List (Tri K), triPoints t.1 t.2.1 t.2.2 n = subs.map (fun s => (s.centroid, s.area)) ∧ subs.length = n * n ∧
      (∀ s ∈ subs, s.area = t.area / (n * n)) ∧ (subs.map Tri.area).sum = t.area ∧ (∀ s ∈ subs, ∀ p, s.Contains p → t.Contains p) ∧
      ∀ p, t.Contains p → ∃ s ∈ subs, s.Contains p := by
  have hn' : (0 : K) < n := by exact_mod_cast hn
  refine ⟨subTris t n, triPoints_eq t hn, subTris_length t n, ?_, subTris_area t hn, ?_, fun p hp => subTris_cover t hn hp⟩
  · intro s hs
    rcases (mem_subTris t n s).mp hs with ⟨i, j, _, rfl⟩ | ⟨i, j, _, rfl⟩
    · exact up_area t hn i j
    · exact down_area t hn i j
  · have hnode : ∀ i j : ℕ, i + j ≤ n → ∃ u v w : K, 0 ≤ u ∧ 0 ≤ v ∧ 0 ≤ w ∧ u + v + w = 1 ∧
        node t n i j = (u * t.1.1 + v * t.2.1.1 + w * t.2.2.1, u * t.1.2 + v * t.2.1.2 + w * t.2.2.2) := by
      intro i j hij
      have : (i + j : K) ≤ n := by exact_mod_cast hij
      refine ⟨1 - i / n - j / n, i / n, j / n, ?_, by positivity, by positivity, by ring, ?_⟩
      · rw [← sub_nonneg] at this
        have h2 : (1 - i / n - j / n : K) = (n - (i + j)) / n := by field_simp; ring
        rw [h2]
        positivity
      · simp only [node, Prod.mk.injEq]
        constructor <;> ring
    have hconv : ∀ s : Tri K, t.Contains s.1 → t.Contains s.2.1 → t.Contains s.2.2 → ∀ p, s.Contains p → t.Contains p := by
      rintro ⟨A, B, C⟩ ⟨a1, a2, a3, ha1, ha2, ha3, ha, hA⟩ ⟨b1, b2, b3, hb1, hb2, hb3, hb, hB⟩ ⟨c1, c2, c3, hc1, hc2, hc3, hc, hC⟩ p ⟨x, y, z, hx, hy, hz, hxyz, rfl⟩
      simp only at hA hB hC
      subst hA hB hC
      refine ⟨x * a1 + y * b1 + z * c1, x * a2 + y * b2 + z * c2, x * a3 + y * b3 + z * c3, by positivity, by positivity, by positivity, ?_, ?_⟩
      · linear_combination x * ha + y * hb + z * hc + hxyz
      · simp only [Prod.mk.injEq]
        constructor <;> ring
    intro s hs
    rcases (mem_subTris t n s).mp hs with ⟨i, j, hij, rfl⟩ | ⟨i, j, hij, rfl⟩
    · exact hconv _ (hnode _ _ (by omega)) (hnode _ _ (by omega)) (hnode _ _ (by omega))
    · exact hconv _ (hnode _ _ (by omega)) (hnode _ _ (by omega)) (hnode _ _ (by omega))

omit [Field K] [IsStrictOrderedRing K] [FloorRing K] in
theorem foldl_max_spec (l : List K) : ∀ x : K, (l.foldl (fun m e => if e > m then e else m) x = x ∨ l.foldl (fun m e => if e > m then e else m) x ∈ l) ∧
    x ≤ l.foldl (fun m e => if e > m then e else m) x ∧ ∀ y ∈ l, y ≤ l.foldl (fun m e => if e > m then e else m) x := by
  induction l with
  | nil => intro x; simp
  | cons a l ih =>
    intro x
    obtain ⟨h1, h2, h3⟩ := ih (if a > x then a else x)
    simp only [List.foldl_cons]
    have hax : x ≤ (if a > x then a else x) ∧ a ≤ (if a > x then a else x) := by
      split
      · rename_i h; exact ⟨h.le, le_refl _⟩
      · rename_i h; exact ⟨le_refl _, not_lt.mp h⟩
    refine ⟨?_, hax.1.trans h2, ?_⟩
    · rcases h1 with h1 | h1
      · rw [h1]
        split
        · right; simp
        · left; rfl
      · right; exact List.mem_cons_of_mem _ h1
    · intro y hy
      rcases List.mem_cons.mp hy with rfl | hy
      · exact hax.2.trans h2
      · exact h3 y hy

omit [Field K] [IsStrictOrderedRing K] [FloorRing K] in
theorem foldl_min_spec (l : List K) : ∀ x : K, (l.foldl (fun m e => if e < m then e else m) x = x ∨ l.foldl (fun m e => if e < m then e else m) x ∈ l) ∧
    l.foldl (fun m e => if e < m then e else m) x ≤ x ∧ ∀ y ∈ l, l.foldl (fun m e => if e < m then e else m) x ≤ y := by
  induction l with
  | nil => intro x; simp
  | cons a l ih =>
    intro x
    obtain ⟨h1, h2, h3⟩ := ih (if a < x then a else x)
    simp only [List.foldl_cons]
    have hax : (if a < x then a else x) ≤ x ∧ (if a < x then a else x) ≤ a := by
      split
      · rename_i h; exact ⟨h.le, le_refl _⟩
      · rename_i h; exact ⟨le_refl _, not_lt.mp h⟩
    refine ⟨?_, h2.trans hax.1, ?_⟩
    · rcases h1 with h1 | h1
      · rw [h1]
        split
        · right; simp
        · left; rfl
      · right; exact List.mem_cons_of_mem _ h1
    · intro y hy
      rcases List.mem_cons.mp hy with rfl | hy
      · exact h2.trans hax.2
      · exact h3 y hy

/-- **C80, density.** With `emin`, `emax` the smallest and largest energy on the points (energies between -100000 and
100000; otherwise the range contains all energies but may be wider), `dos_patch` returns for each of `neps` equal bins
the area of the small triangles whose centre has an energy of the bin, divided by the width: the integral over energy is
the total area. For two or more bins the returned energy `i` lies in the closed bin `i`. If all energies are equal the
function converts 0/0 to an integer. -/
theorem C80_dos_patch (en : K × K → K) (tris : List (Tri K)) {neps ndiv : ℕ} (he : 1 ≤ neps) (hd : 1 ≤ ndiv) (ht : tris ≠ []) :
    let subs := tris.flatMap (fun t => subTris t ndiv);
    ∃ emin emax : K,
      (∀ s ∈ subs, emin ≤ en s.centroid ∧ en s.centroid ≤ emax) ∧
      ((∀ s ∈ subs, |en s.centroid| ≤ 100000) → (∃ s ∈ subs, en s.centroid = emin) ∧ ∃ s ∈ subs, en s.centroid = emax) ∧
      (emin = emax → dosPatch en tris neps ndiv = none) ∧
      (emin < emax → ∃ eps rho, dosPatch en tris neps ndiv = some (eps, rho) ∧
        (∀ i, i < neps → rho i * ((emax - emin) / neps) = (subs.map (fun s => if InBin emin emax neps i (en s.centroid) then s.area else 0)).sum) ∧
        ∑ i ∈ Finset.range neps, rho i * ((emax - emin) / neps) = (tris.map Tri.area).sum ∧
        (neps ≠ 1 → ∀ i, i < neps → ∃ x, eps i = some x ∧ emin + i * ((emax - emin) / neps) ≤ x ∧ x ≤ emin + (i + 1) * ((emax - emin) / neps))) := by
  intro subs
  have hpts : tris.flatMap (fun t => triPoints t.1 t.2.1 t.2.2 ndiv) = subs.map (fun s => (s.centroid, s.area)) := by
    rw [List.map_flatMap]
    apply List.flatMap_congr
    intro t _
    exact triPoints_eq t hd
  have hlen : (subs.map (fun s => (s.centroid, s.area))).length = tris.length * ndiv * ndiv := by
    rw [List.length_map, List.length_flatMap]
    have : (tris.map (fun t => (subTris t ndiv).length)) = tris.map (fun _ => ndiv * ndiv) := by
      apply List.map_congr_left
      intro t _
      exact subTris_length t ndiv
    rw [this, List.map_const', List.sum_replicate, smul_eq_mul]
    ring
  have hsub : subs ≠ [] := by
    intro hc
    rw [hc] at hlen
    have h1 : 0 < tris.length := List.length_pos_of_ne_nil ht
    have h2 : 0 < tris.length * ndiv * ndiv := by positivity
    rw [← hlen] at h2
    simp at h2
  set all : List (K × K) := subs.map (fun s => (en s.centroid, s.area)) with hall
  set emax : K := (all.map Prod.fst).foldl (fun m e => if e > m then e else m) (-100000) with hmax
  set emin : K := (all.map Prod.fst).foldl (fun m e => if e < m then e else m) 100000 with hmin
  have hdos : dosPatch en tris neps ndiv = (binAll emin ((emax - emin) / neps) neps (fun _ => (0 : K)) all).map fun rho =>
      (fun i : ℕ => if neps = 1 then none else some (emin + i / ((neps : K) - 1) * (emax - emin)), fun i => rho i / ((emax - emin) / neps)) := by
    unfold dosPatch
    have hall' : (subs.map (fun s => (s.centroid, s.area))).map (fun p => (en p.1, p.2)) = all := by
      rw [hall, List.map_map]
      rfl
    simp only [hpts, hall']
    rw [if_neg (by rw [hlen]; simp), if_neg (by omega)]
  obtain ⟨m1, m2, m3⟩ := foldl_max_spec (all.map Prod.fst) (-100000)
  obtain ⟨n1, n2, n3⟩ := foldl_min_spec (all.map Prod.fst) 100000
  rw [← hmax] at m1 m2 m3
  rw [← hmin] at n1 n2 n3
  have hfst : ∀ e, e ∈ all.map Prod.fst ↔ ∃ s ∈ subs, en s.centroid = e := by
    intro e
    rw [hall, List.map_map]
    simp
  have hrange : ∀ x ∈ all, emin ≤ x.1 ∧ x.1 ≤ emax := fun x hx => ⟨n3 _ (List.mem_map_of_mem hx), m3 _ (List.mem_map_of_mem hx)⟩
  refine ⟨emin, emax, ?_, ?_, ?_, ?_⟩
  · intro s hs
    exact ⟨n3 _ ((hfst _).mpr ⟨s, hs, rfl⟩), m3 _ ((hfst _).mpr ⟨s, hs, rfl⟩)⟩
  · intro hb
    obtain ⟨s0, hs0⟩ := List.exists_mem_of_ne_nil _ hsub
    have hb0 := abs_le.mp (hb s0 hs0)
    have e1 := n3 _ ((hfst _).mpr ⟨s0, hs0, rfl⟩)
    have e2 := m3 _ ((hfst _).mpr ⟨s0, hs0, rfl⟩)
    constructor
    · rcases n1 with h | h
      · refine ⟨s0, hs0, ?_⟩
        linarith
      · exact (hfst _).mp h
    · rcases m1 with h | h
      · refine ⟨s0, hs0, ?_⟩
        linarith
      · exact (hfst _).mp h
  · intro heq
    rw [hdos, heq]
    cases h : all with
    | nil => rw [hall] at h; simp at h; exact absurd h hsub
    | cons x l => simp [binAll, binOne]
  · intro hlt
    have hn' : (0 : K) < neps := by exact_mod_cast he
    have hdp : 0 < (emax - emin) / neps := div_pos (by linarith) hn'
    rw [hdos, binAll_spec (by omega) hlt all _ hrange, Option.map_some]
    refine ⟨_, _, rfl, ?_, ?_, ?_⟩
    · intro i hi
      rw [div_mul_cancel₀ _ hdp.ne']
      beta_reduce
      rw [zero_add, hall, List.map_map]
      congr 1
      apply List.map_congr_left
      intro s _
      simp [hi]
    · have hs := sum_bins (n := neps) (by omega) hlt all hrange
      have : ∀ i ∈ Finset.range neps, (0 + (all.map (fun x => if i < neps ∧ InBin emin emax neps i x.1 then x.2 else 0)).sum)
          / ((emax - emin) / neps) * ((emax - emin) / neps) = (all.map (fun x => if i < neps ∧ InBin emin emax neps i x.1 then x.2 else 0)).sum := by
        intro i _
        rw [div_mul_cancel₀ _ hdp.ne', zero_add]
      rw [Finset.sum_congr rfl this, hs, hall, List.map_map]
      change (subs.map Tri.area).sum = _
      have hflat : ∀ l : List (Tri K), ((l.flatMap (fun t => subTris t ndiv)).map Tri.area).sum = (l.map Tri.area).sum := by
        intro l
        induction l with
        | nil => simp
        | cons t l ih => rw [List.flatMap_cons, List.map_append, List.sum_append, ih, subTris_area t hd]; simp
      exact hflat tris
    · intro hne i hi
      have h2 : (0 : K) < (neps : K) - 1 := by
        have : (2 : K) ≤ neps := by exact_mod_cast (by omega : 2 ≤ neps)
        linarith
      have hw : emax - emin = neps * ((emax - emin) / neps) := by field_simp
      set d := (emax - emin) / neps with hdd
      refine ⟨_, by beta_reduce; rw [if_neg hne], ?_, ?_⟩
      · rw [hw]
        have : (i : K) * d ≤ i / (neps - 1) * (neps * d) := by
          rw [show (i : K) / (neps - 1) * (neps * d) = i * d * (neps / (neps - 1)) by ring]
          apply le_mul_of_one_le_right (by positivity)
          rw [le_div_iff₀ h2]
          linarith
        linarith
      · rw [hw]
        have hi' : (i : K) ≤ neps - 1 := by
          have : (i + 1 : K) ≤ neps := by exact_mod_cast hi
          linarith
        have : (i : K) / (neps - 1) * (neps * d) ≤ (i + 1) * d := by
          rw [show (i : K) / (neps - 1) * (neps * d) = (i * neps / (neps - 1)) * d by ring]
          apply mul_le_mul_of_nonneg_right _ hdp.le
          rw [div_le_iff₀ h2]
          linarith
        linarith

/-- with one bin the returned energy is 0/0 -/
theorem C80_one_bin (en : K × K → K) (tris : List (Tri K)) (ndiv : ℕ) (r : (ℕ → Option K) × (ℕ → K))
    (h : dosPatch en tris 1 ndiv = some r) (i : ℕ) : r.1 i = none := by
  unfold dosPatch at h
  simp only at h
  split at h
  · simp at h
  · rw [if_neg one_ne_zero, Option.map_eq_some_iff] at h
    obtain ⟨_, _, rfl⟩ := h
    simp

end

/-! ### C81 -/

theorem pathLoop_eq {V : Type} [AddCommGroup V] (dk : V) (n : ℕ) : ∀ k : V, pathLoop dk n k = (List.range n).map (fun i : ℕ => k + i • dk) := by
  induction n with
  | zero => intro k; rfl
  | succ n ih =>
    intro k
    rw [pathLoop, ih, List.range_succ_eq_map, List.map_cons, List.map_map]
    congr 1
    · simp
    · apply List.map_congr_left
      intro i _
      simp only [Function.comp_apply, succ_nsmul]
      abel

/-- **C81, paths.** Column `i` is the Hamiltonian (or its eigenvalues) at the point `K1 + (i/n) (K2 - K1)`, `i < n`. -/
theorem C81_path {K V R : Type} [Field K] [AddCommGroup V] [Module K V] (f : V → R) (K1 K2 : V) (n : ℕ) :
    (path (K := K) K1 K2 n).map f = (List.range n).map (fun i : ℕ => f (K1 + ((i : K) / n) • (K2 - K1))) := by
  unfold path
  rw [pathLoop_eq, List.map_map]
  apply List.map_congr_left
  intro i _
  simp only [Function.comp_apply]
  congr 2
  rw [← Nat.cast_smul_eq_nsmul K, smul_smul]
  congr 1
  ring

/-- joined paths have equal spacing and visit the corner between them once; the end of a path is never visited -/
theorem C81_end_not_visited {K V : Type} [Field K] [LinearOrder K] [IsStrictOrderedRing K] [AddCommGroup V] [Module K V]
    (K1 K2 : V) (h : K1 ≠ K2) (n : ℕ) : K2 ∉ path (K := K) K1 K2 n := by
  intro hc
  have h1 := C81_path (K := K) (fun x : V => x) K1 K2 n
  rw [List.map_id'] at h1
  rw [h1] at hc
  obtain ⟨i, hi, he⟩ := List.mem_map.mp hc
  have hi' := List.mem_range.mp hi
  have hn : (0 : K) < n := by exact_mod_cast (by omega : 0 < n)
  have h2 : ((i : K) / n - 1) • (K2 - K1) = 0 := by
    rw [sub_smul, one_smul, sub_eq_zero, eq_sub_iff_add_eq, add_comm]
    exact he
  have h3 : (i : K) / n - 1 ≠ 0 := by
    intro h0
    have : (i : K) / n = 1 := by linarith
    rw [div_eq_one_iff_eq hn.ne'] at this
    have : i = n := by exact_mod_cast this
    omega
  -- the vector is zero
  have h4 : K2 - K1 = 0 := by
    have := congrArg (fun v => ((i : K) / n - 1)⁻¹ • v) h2
    simpa [smul_smul, inv_mul_cancel₀ h3] using this
  exact h (sub_eq_zero.mp h4).symm

/-- **C81, grid.** Column `t` is the result at point `t` of the grid, and there are `n^dim` columns. -/
theorem C81_grid {K R : Type} [Field K] (f : K × K × K → R) {dim n fuel : ℕ} (hn : 1 ≤ n) (h1 : 1 ≤ dim) (h3 : dim ≤ 3) (hf : n ^ dim < fuel) :
    onGrid f dim n fuel = some ((List.range (n ^ dim)).map (fun t : ℕ => ((t : ℤ), f (gridPt dim n t)))) := by
  unfold onGrid
  simp only [visits_eq dim n hn h1 h3 fuel hf, Option.bind_some]
  rw [if_pos, List.map_map]
  · rfl
  · have hs : (Gen.mk' (K := K) dim n).size = (n ^ dim : ℕ) := by
      have hg := at_init (K := K) dim n
      rw [Gen.size, hg.hNX, hg.hNY, hg.hNZ, ← extents_size dim n h1 h3]
      push_cast
      ring
    rw [List.all_eq_true]
    intro p hp
    obtain ⟨t, ht, rfl⟩ := List.mem_map.mp hp
    have := List.mem_range.mp ht
    rw [decide_eq_true_iff, hs]
    dsimp only
    constructor
    · simp
    · exact_mod_cast this

/-- no point per direction: the result of the only visited point is written outside of the array -/
theorem C81_empty_grid_undefined {K R : Type} [Field K] (f : K × K × K → R) {dim fuel : ℕ} (h1 : 1 ≤ dim) (h3 : dim ≤ 3) (hf : 2 ≤ fuel) :
    onGrid f dim 0 fuel = none := by
  obtain ⟨hs, hv⟩ := C63_no_points (K := K) dim h1 h3
  obtain ⟨p, hp⟩ := hv fuel hf
  have hp' : Gen.visits fuel (Gen.mk' (K := K) dim (0 : ℕ)) = some [(0, p)] := by simpa using hp
  have hs' : (Gen.mk' (K := K) dim (0 : ℕ)).size = 0 := by simpa using hs
  unfold onGrid
  simp only [hp', hs', Option.bind_some]
  simp

/-! ### examples -/

/-- one band on a line: energies -1, 1 at two points, two bins -/
example : (dos (K := ℚ) (fun p => if p.1 < 1 / 2 then -1 else 1) (fun _ => (fun _ => 0, fun _ _ => 0)) 1 1 2 2 10).map
    (fun r => ([r.1 0, r.1 1], [r.2 0 0, r.2 1 0])) = some ([-1 / 2, 1 / 2], [1 / 2, 1 / 2]) := by decide +kernel

/-- a flat band -/
example : (dos (K := ℚ) (fun _ => 3) (fun _ => (fun _ => 0, fun _ _ => 0)) 1 1 2 2 10).isNone = true := by decide +kernel

/-- two triangles of the unit square, each divided in four, `e(x, y) = x + y` -/
example : (dosPatch (K := ℚ) (fun p => p.1 + p.2) [((0, 0), (1, 0), (0, 1)), ((1, 1), (1, 0), (0, 1))] 2 2).map
    (fun r => ([r.1 0, r.1 1], r.2 0 * (2 / 3) + r.2 1 * (2 / 3))) = some ([some (1 / 3), some (5 / 3)], 1) := by decide +kernel

example : path (K := ℚ) (0 : ℚ) 1 4 = [0, 1 / 4, 1 / 2, 3 / 4] := by decide +kernel

end Verif.Dos
