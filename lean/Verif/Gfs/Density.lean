import Verif.AtomDiag.Lehmann
import Verif.Gfs.LegendreMatsubara
import Verif.Mesh.Linear
import Mathlib.Analysis.SpecialFunctions.Trigonometric.Cotangent
import Mathlib.Analysis.Matrix.PosDef
import Mathlib.MeasureTheory.Integral.IntervalIntegral.FundThmCalculus

/-!
# Properties C107-C111: densities

Source: `/repo/c++/triqs/gfs/functions/density.cpp`.

Simplifications: exact real and complex numbers. The tail fit (C83, C84) is a parameter of the density from Matsubara frequencies.
On the real axis the target is a square matrix.
-/

namespace Verif.Density
open Complex Filter Topology
open Verif.Matsubara (Stat Mesh Freq)
open Verif.Fourier (iw Poles polesDensity)

/-! ## Model -/

/-- outcome of a call: a value, an exception, or undefined behaviour -/
inductive Out (α : Type) where
  | ok (a : α)
  | exn
  | undef

/-- an array with two indices -/
abbrev Arr := ℕ → ℕ → ℂ

/-- assignment to the element `(i, j)`; elements that were never assigned are `none` -/
def put (r : ℕ → ℕ → Option ℂ) (i j : ℕ) (v : ℂ) : ℕ → ℕ → Option ℂ := fun a b => if a = i ∧ b = j then some v else r a b

/-- the pairs `(n1, n2)` visited by the loops, density.cpp:85-86 -/
def pairs (N1 N2 : ℕ) : List (ℕ × ℕ) := (List.range N1).flatMap fun n1 => ((List.range N2).filter fun n2 => decide (n1 ≤ n2)).map fun n2 => (n1, n2)

/-- body of the loops, density.cpp:87-117, for a target of shape `N1 x N2`; `none` when an element outside of the array is written -/
noncomputable def step (m : Mesh) (N1 N2 : ℕ) (mom : ℕ → Arr) (gw : ℤ → Arr) (r : Option (ℕ → ℕ → Option ℂ)) (n : ℕ × ℕ) : Option (ℕ → ℕ → Option ℂ) :=
  r.bind fun r =>
    let v := Fourier.density m (mom 1 n.1 n.2) (mom 2 n.1 n.2) (mom 3 n.1 n.2) (fun k => gw k n.1 n.2);
    let r := put r n.1 n.2 v;
    if n.2 > n.1 then (if n.2 < N1 ∧ n.1 < N2 then some (put r n.2 n.1 ((starRingEnd ℂ) v)) else none) else some r

/-- the loops, density.cpp:61, 85-117 -/
noncomputable def loop (m : Mesh) (N1 N2 : ℕ) (mom : ℕ → Arr) (gw : ℤ → Arr) : Option (ℕ → ℕ → Option ℂ) :=
  (pairs N1 N2).foldl (step m N1 N2 mom gw) (some fun _ _ => none)

/-- the test of the zeroth moment, density.cpp:42-44 -/
def zerothVanishes (N1 N2 : ℕ) (k : Arr) : Prop := ∀ i < N1, ∀ j < N2, ‖k i j‖ < 1e-8

open Classical in
/-- density.cpp:42-119, for a list of known moments that is not empty. The call with the fitted moments is written out: it has at least
four of them and does not fit again. -/
noncomputable def checked (fit : List Arr → List Arr × ℝ) (m : Mesh) (N1 N2 : ℕ) (gw : ℤ → Arr) (known : List Arr) : Out (ℕ → ℕ → Option ℂ) :=
  let run : List Arr → Out (ℕ → ℕ → Option ℂ) := fun k => (loop m N1 N2 (fun i => k.getD i fun _ _ => 0) gw).elim .undef .ok;
  if ¬ zerothVanishes N1 N2 (known.getD 0 fun _ _ => 0) then .exn
  else if known.length < 4 then
    if ¬ (fit known).2 < 1e-2 then .exn
    else if ¬ (fit known).1.length > 3 then .exn
    else if ¬ zerothVanishes N1 N2 ((fit known).1.getD 0 fun _ _ => 0) then .exn
    else run (fit known).1
  else run known

/-- density from Matsubara frequencies, density.cpp:32-120; `fit` is `fit_tail` of this function with the known moments: the moments
and the error -/
noncomputable def matsubara (fit : List Arr → List Arr × ℝ) (m : Mesh) (N1 N2 : ℕ) (gw : ℤ → Arr) (known : List Arr) : Out (ℕ → ℕ → Option ℂ) :=
  if m.positiveOnly then .exn else checked fit m N1 N2 gw (if known.isEmpty then [fun _ _ => 0] else known)

variable {d : ℕ}

/-- the end of both densities on the real axis, density.cpp:159-164 and 178-183: the diagonal keeps its imaginary part, the result is
scaled and made hermitian -/
noncomputable def finish (dw : ℝ) (res : Matrix (Fin d) (Fin d) ℂ) : Matrix (Fin d) (Fin d) ℂ :=
  let r1 : Matrix (Fin d) (Fin d) ℂ := Matrix.of fun i j => if i = j then I * ((res i i).im : ℂ) else res i j;
  let r2 := (I * dw / Real.pi) • r1;
  (0.5 : ℂ) • (r2 + r2.conjTranspose)

/-- step of the linear mesh, linear.hpp:47-56 -/
noncomputable def delta (wmin wmax : ℝ) (N : ℕ) : ℝ := if N = 1 then 0 else (wmax - wmin) / ((N : ℝ) - 1)

/-- `to_value` of the linear mesh, linear.hpp:154-160 -/
noncomputable def value (wmin wmax : ℝ) (N k : ℕ) : ℝ := if N = 1 then wmin else wmin * (1 - k / ((N : ℝ) - 1)) + wmax * (k / ((N : ℝ) - 1))

/-- zero-temperature density on the real axis, density.cpp:135-165, for the mesh of `N` points on `[wmin, wmax]`. Undefined: `EXPECTS`
fails, the step is zero, or a point after the last one is read. -/
noncomputable def zeroT (wmin wmax : ℝ) (N : ℕ) (g : ℕ → Matrix (Fin d) (Fin d) ℂ) : Out (Matrix (Fin d) (Fin d) ℂ) :=
  let dw := delta wmin wmax N;
  if ¬ wmin < 0 ∨ N = 0 ∨ dw = 0 then .undef
  else
    let N0 : ℕ := ⌊-wmin / dw⌋₊ + 1;
    let dw0 := -wmin - (N0 - 1) * dw;
    if N < N0 then .undef
    else
      let res := (List.range' 1 (N0 - 1)).foldl (fun r k => r + g k) ((0.5 : ℂ) • g 0);
      if |dw0| > 1e-9 then
        if N ≤ N0 then .undef
        else
          let a : ℂ := ((dw0 / dw : ℝ) : ℂ);
          .ok (finish dw (res + (0.5 : ℂ) • ((a * a - 1) • g (N0 - 1) + (a * (2 - a)) • g N0)))
      else .ok (finish dw (res - (0.5 : ℂ) • g (N0 - 1)))

/-- finite-temperature density on the real axis, density.cpp:168-184 -/
noncomputable def finiteT (beta wmin wmax : ℝ) (N : ℕ) (g : ℕ → Matrix (Fin d) (Fin d) ℂ) : Out (Matrix (Fin d) (Fin d) ℂ) :=
  if ¬ 0 < beta then .undef
  else .ok (finish (delta wmin wmax N) ((List.range N).foldl (fun r k => r + ((1 + Real.exp (beta * value wmin wmax N k) : ℝ) : ℂ)⁻¹ • g k) 0))

/-- density from Legendre coefficients, density.cpp:197-207, for `n` coefficients -/
noncomputable def legendre (beta : ℝ) (n : ℕ) (gl : ℕ → Matrix (Fin d) (Fin d) ℂ) : Matrix (Fin d) (Fin d) ℂ :=
  ((beta : ℂ)⁻¹ • (List.range n).foldl (fun r (l : ℕ) => r - (Real.sqrt (2 * l + 1) : ℂ) • gl l) 0).transpose

/-! ## Specification -/

/-- occupation of a level at `e`: Fermi or Bose function -/
noncomputable def occupation (st : Stat) (beta e : ℝ) : ℝ := if st = .fermion then 1 / (Real.exp (beta * e) + 1) else 1 / (Real.exp (beta * e) - 1)

/-- spectral function -/
noncomputable def spectral (g : Matrix (Fin d) (Fin d) ℂ) : Matrix (Fin d) (Fin d) ℂ := (I / (2 * Real.pi)) • (g - g.conjTranspose)

/-- a function of real frequency as its evaluator returns it (linear interpolation), `Verif.Linear.evaluate` -/
noncomputable def interpolate (wmin wmax : ℝ) (N : ℕ) (f : ℕ → ℂ) (x : ℝ) : ℂ :=
  ((Linear.mk' wmin wmax N).bind fun m => Linear.evaluate m (fun k : ℤ => f k.toNat) x).getD 0

/-! ## Proofs -/

/-! ### C107: matrices -/

/-- the index of the opposite frequency -/
def opposite (st : Stat) (n : ℤ) : ℤ := if st = .fermion then -n - 1 else -n

theorem iw_opposite (m : Mesh) (n : ℤ) : iw m (opposite m.stat n) = (starRingEnd ℂ) (iw m n) := by
  rw [Fourier.iw_eq, Fourier.iw_eq, opposite]
  cases hst : m.stat <;> simp [Stat.toInt, map_ofNat] <;> ring

theorem opposite_opposite (st : Stat) (n : ℤ) : opposite st (opposite st n) = n := by
  unfold opposite
  split_ifs <;> ring

theorem mem_indices (m : Mesh) (n : ℤ) : n ∈ m.indices ↔ m.first ≤ n ∧ n ≤ m.last := by
  unfold Mesh.indices
  rw [List.mem_map]
  constructor
  · rintro ⟨k, hk, rfl⟩
    rw [List.mem_range] at hk
    unfold Mesh.toIndex
    unfold Mesh.size at hk
    omega
  · rintro ⟨h1, h2⟩
    refine ⟨(n - m.first).toNat, ?_, ?_⟩
    · rw [List.mem_range]; unfold Mesh.size; omega
    · unfold Mesh.toIndex; omega

theorem indices_opposite (beta : ℝ) (st : Stat) (nIw : ℤ) :
    ((Mesh.mk' beta st nIw false).indices.map (opposite st)).Perm (Mesh.mk' beta st nIw false).indices := by
  have hinj : Function.Injective (opposite st) := fun a b h => by
    rw [← opposite_opposite st a, h, opposite_opposite]
  rw [List.perm_ext_iff_of_nodup ((Fourier.indices_nodup _).map hinj) (Fourier.indices_nodup _)]
  intro n
  rw [List.mem_map, mem_indices]
  simp only [mem_indices]
  simp only [Mesh.mk', Bool.false_eq_true, if_false]
  constructor
  · rintro ⟨k, hk, rfl⟩
    unfold opposite
    cases st <;> simp at hk ⊢ <;> omega
  · intro h
    refine ⟨opposite st n, ?_, opposite_opposite st n⟩
    unfold opposite
    cases st <;> simp at h ⊢ <;> omega

/-- the density of the function of the opposite frequencies, conjugated -/
theorem density_conj (beta : ℝ) (st : Stat) (nIw : ℤ) (m1 m2 m3 : ℂ) (gw gw' : ℤ → ℂ)
    (hg : ∀ n ∈ (Mesh.mk' beta st nIw false).indices, gw' n = (starRingEnd ℂ) (gw (opposite st n))) :
    Fourier.density (Mesh.mk' beta st nIw false) ((starRingEnd ℂ) m1) ((starRingEnd ℂ) m2) ((starRingEnd ℂ) m3) gw' =
      (starRingEnd ℂ) (Fourier.density (Mesh.mk' beta st nIw false) m1 m2 m3 gw) := by
  set m := Mesh.mk' beta st nIw false with hm
  have hst : m.stat = st := rfl
  have hbe : m.beta = beta := rfl
  have hp1 : (polesDensity st ((starRingEnd ℂ) m1) ((starRingEnd ℂ) m2) ((starRingEnd ℂ) m3)).b1 = (polesDensity st m1 m2 m3).b1 ∧
      (polesDensity st ((starRingEnd ℂ) m1) ((starRingEnd ℂ) m2) ((starRingEnd ℂ) m3)).b2 = (polesDensity st m1 m2 m3).b2 ∧
      (polesDensity st ((starRingEnd ℂ) m1) ((starRingEnd ℂ) m2) ((starRingEnd ℂ) m3)).b3 = (polesDensity st m1 m2 m3).b3 := by
    cases st <;> simp [polesDensity]
  have hp2 : (polesDensity st ((starRingEnd ℂ) m1) ((starRingEnd ℂ) m2) ((starRingEnd ℂ) m3)).a1 = (starRingEnd ℂ) (polesDensity st m1 m2 m3).a1 ∧
      (polesDensity st ((starRingEnd ℂ) m1) ((starRingEnd ℂ) m2) ((starRingEnd ℂ) m3)).a2 = (starRingEnd ℂ) (polesDensity st m1 m2 m3).a2 ∧
      (polesDensity st ((starRingEnd ℂ) m1) ((starRingEnd ℂ) m2) ((starRingEnd ℂ) m3)).a3 = (starRingEnd ℂ) (polesDensity st m1 m2 m3).a3 := by
    cases st <;> simp [polesDensity, map_ofNat]
  have hsum : (m.indices.map fun n => gw' n - (polesDensity st ((starRingEnd ℂ) m1) ((starRingEnd ℂ) m2) ((starRingEnd ℂ) m3)).freq (iw m n)).sum =
      (starRingEnd ℂ) (m.indices.map fun n => gw n - (polesDensity st m1 m2 m3).freq (iw m n)).sum := by
    rw [map_list_sum, List.map_map]
    have e1 : (m.indices.map fun n => gw' n - (polesDensity st ((starRingEnd ℂ) m1) ((starRingEnd ℂ) m2) ((starRingEnd ℂ) m3)).freq (iw m n)) =
        (m.indices.map (opposite st)).map ((starRingEnd ℂ) ∘ fun n => gw n - (polesDensity st m1 m2 m3).freq (iw m n)) := by
      rw [List.map_map]
      apply List.map_congr_left
      intro n hn
      simp only [Function.comp]
      rw [hg n hn, map_sub]
      congr 1
      rw [← hst, iw_opposite, hst, Poles.freq, Poles.freq, hp1.1, hp1.2.1, hp1.2.2, hp2.1, hp2.2.1, hp2.2.2]
      simp only [map_add, map_div₀, map_sub, conj_conj, conj_ofReal]
    rw [e1]
    exact ((indices_opposite beta st nIw).map _).sum_eq
  unfold Fourier.density
  simp only [hst, hsum, hp1.1, hp1.2.1, hp1.2.2, hp2.1, hp2.2.1, hp2.2.2]
  simp only [map_add, map_mul, map_div₀, conj_ofReal, map_neg]

/-- the elements after the loops over a list of pairs -/
theorem loop_spec (m : Mesh) (N1 N2 : ℕ) (mom : ℕ → Arr) (gw : ℤ → Arr) (L : List (ℕ × ℕ)) (hL : ∀ n ∈ L, n.1 ≤ n.2 ∧ (n.1 < n.2 → n.2 < N1 ∧ n.1 < N2))
    (r0 : ℕ → ℕ → Option ℂ) :
    ∃ r, L.foldl (step m N1 N2 mom gw) (some r0) = some r ∧ ∀ a b, r a b =
      if (a, b) ∈ L then some (Fourier.density m (mom 1 a b) (mom 2 a b) (mom 3 a b) fun k => gw k a b)
      else if (b, a) ∈ L then some ((starRingEnd ℂ) (Fourier.density m (mom 1 b a) (mom 2 b a) (mom 3 b a) fun k => gw k b a))
      else r0 a b := by
  induction L generalizing r0 with
  | nil => exact ⟨r0, rfl, fun a b => by simp⟩
  | cons n L ih =>
    obtain ⟨i, j⟩ := n
    have hn := hL (i, j) (by simp)
    simp only at hn
    set v := Fourier.density m (mom 1 i j) (mom 2 i j) (mom 3 i j) (fun k => gw k i j) with hv
    set r1 := if j > i then put (put r0 i j v) j i ((starRingEnd ℂ) v) else put r0 i j v with hr1
    have hst : step m N1 N2 mom gw (some r0) (i, j) = some r1 := by
      unfold step
      simp only [Option.bind_some]
      by_cases h : j > i
      · rw [if_pos h, if_pos (hn.2 h), hr1, if_pos h]
      · rw [if_neg h, hr1, if_neg h]
    obtain ⟨r, h1, h2⟩ := ih (fun n hn => hL n (by simp [hn])) r1
    refine ⟨r, by rw [List.foldl_cons, hst, h1], fun a b => ?_⟩
    rw [h2]
    simp only [List.mem_cons, Prod.mk.injEq]
    by_cases hab : (a, b) ∈ L
    · simp [hab]
    · by_cases hba : (b, a) ∈ L
      · by_cases he : a = i ∧ b = j
        · obtain ⟨rfl, rfl⟩ := he
          have := (hL (b, a) (by simp [hba])).1
          simp only at this
          have hab' : a = b := by omega
          subst hab'
          exact absurd hba hab
        · simp [hab, hba, he]
      · simp only [hab, hba, if_false, or_false]
        rw [hr1]
        by_cases he : a = i ∧ b = j
        · rw [if_pos he]
          obtain ⟨rfl, rfl⟩ := he
          by_cases h : b > a
          · rw [if_pos h, put, if_neg (by omega), put, if_pos ⟨rfl, rfl⟩]
          · rw [if_neg h, put, if_pos ⟨rfl, rfl⟩]
        · rw [if_neg he]
          by_cases he' : b = i ∧ a = j
          · rw [if_pos he']
            obtain ⟨rfl, rfl⟩ := he'
            have : a > b := by omega
            rw [if_pos this, put, if_pos ⟨rfl, rfl⟩]
          · rw [if_neg he']
            by_cases h : j > i
            · rw [if_pos h, put, if_neg (by omega), put, if_neg he]
            · rw [if_neg h, put, if_neg he]

theorem mem_pairs (N1 N2 a b : ℕ) : (a, b) ∈ pairs N1 N2 ↔ a < N1 ∧ b < N2 ∧ a ≤ b := by
  unfold pairs
  simp only [List.mem_flatMap, List.mem_range, List.mem_map, List.mem_filter, decide_eq_true_eq, Prod.mk.injEq]
  constructor
  · rintro ⟨n1, h1, n2, ⟨h2, h3⟩, rfl, rfl⟩
    exact ⟨h1, h2, h3⟩
  · rintro ⟨h1, h2, h3⟩
    exact ⟨a, h1, b, ⟨h2, h3⟩, rfl, rfl⟩

theorem loop_square (m : Mesh) (N : ℕ) (mom : ℕ → Arr) (gw : ℤ → Arr) : ∃ r, loop m N N mom gw = some r ∧ ∀ a < N, ∀ b < N,
    r a b = if a ≤ b then some (Fourier.density m (mom 1 a b) (mom 2 a b) (mom 3 a b) fun k => gw k a b)
      else some ((starRingEnd ℂ) (Fourier.density m (mom 1 b a) (mom 2 b a) (mom 3 b a) fun k => gw k b a)) := by
  obtain ⟨r, h1, h2⟩ := loop_spec m N N mom gw (pairs N N) (fun n hn => by
    obtain ⟨a, b⟩ := n
    rw [mem_pairs] at hn
    exact ⟨hn.2.2, fun _ => ⟨hn.2.1, hn.1⟩⟩) (fun _ _ => none)
  refine ⟨r, h1, fun a ha b hb => ?_⟩
  rw [h2]
  simp only [mem_pairs]
  by_cases h : a ≤ b
  · simp [ha, hb, h]
  · rw [if_neg (by omega), if_pos (by omega), if_neg h]

/-- the call with at least four moments of which the zeroth vanishes -/
theorem matsubara_known (fit : List Arr → List Arr × ℝ) (m : Mesh) (hm : m.positiveOnly = false) (N1 N2 : ℕ) (gw : ℤ → Arr) (known : List Arr)
    (hk : 4 ≤ known.length) (h0 : zerothVanishes N1 N2 (known.getD 0 fun _ _ => 0)) :
    matsubara fit m N1 N2 gw known = (loop m N1 N2 (fun i => known.getD i fun _ _ => 0) gw).elim .undef .ok := by
  unfold matsubara
  have he : known.isEmpty = false := by
    cases known with
    | nil => simp at hk
    | cons => rfl
  simp only [hm, he, Bool.false_eq_true, if_false]
  unfold checked
  simp only
  rw [if_neg (not_not_intro h0), if_neg (by omega)]

/-- **C107.** For a hermitian function, `G_ij(iw) = conj G_ji(-iw)`, with hermitian moments, every element of the result is the density of
that element of the function. -/
theorem C107_elements (fit : List Arr → List Arr × ℝ) (beta : ℝ) (st : Stat) (nIw : ℤ) (N : ℕ) (gw : ℤ → Arr) (known : List Arr) (hk : 4 ≤ known.length)
    (h0 : zerothVanishes N N (known.getD 0 fun _ _ => 0))
    (hg : ∀ n ∈ (Mesh.mk' beta st nIw false).indices, ∀ i < N, ∀ j < N, gw n i j = (starRingEnd ℂ) (gw (opposite st n) j i))
    (hm : ∀ k, 1 ≤ k → k ≤ 3 → ∀ i < N, ∀ j < N, known.getD k (fun _ _ => 0) i j = (starRingEnd ℂ) (known.getD k (fun _ _ => 0) j i)) :
    ∃ r, matsubara fit (Mesh.mk' beta st nIw false) N N gw known = .ok r ∧ ∀ i < N, ∀ j < N,
      r i j = some (Fourier.density (Mesh.mk' beta st nIw false) (known.getD 1 (fun _ _ => 0) i j) (known.getD 2 (fun _ _ => 0) i j)
        (known.getD 3 (fun _ _ => 0) i j) fun n => gw n i j) := by
  obtain ⟨r, h1, h2⟩ := loop_square (Mesh.mk' beta st nIw false) N (fun i => known.getD i fun _ _ => 0) gw
  refine ⟨r, by rw [matsubara_known fit (Mesh.mk' beta st nIw false) rfl N N gw known hk h0, h1]; rfl, fun i hi j hj => ?_⟩
  rw [h2 i hi j hj]
  split_ifs with h
  · rfl
  · rw [hm 1 le_rfl (by norm_num) i hi j hj, hm 2 (by norm_num) (by norm_num) i hi j hj, hm 3 (by norm_num) le_rfl i hi j hj,
      density_conj beta st nIw _ _ _ (fun n => gw n j i) _ fun n hn => hg n hn i hi j hj]

/-- two uncoupled levels at zero: the density is half of the identity -/
example (fit : List Arr → List Arr × ℝ) (beta : ℝ) (nIw : ℤ) : ∃ r,
    matsubara fit (Mesh.mk' beta .fermion nIw false) 2 2 (fun n i j => if i = j then 1 / iw (Mesh.mk' beta .fermion nIw false) n else 0)
      [fun _ _ => 0, fun i j => if i = j then 1 else 0, fun _ _ => 0, fun _ _ => 0] = .ok r ∧ r 1 1 = some (1 / 2) ∧ r 1 0 = some 0 := by
  obtain ⟨r, h1, h2⟩ := C107_elements fit beta .fermion nIw 2 (fun n i j => if i = j then 1 / iw (Mesh.mk' beta .fermion nIw false) n else 0)
    [fun _ _ => 0, fun i j => if i = j then 1 else 0, fun _ _ => 0, fun _ _ => 0] (by simp) (by intro i _ j _; simp; norm_num)
    (by
      intro n _ i _ j _
      have := iw_opposite (Mesh.mk' beta .fermion nIw false) n
      have hs : (Mesh.mk' beta .fermion nIw false).stat = .fermion := rfl
      rw [hs] at this
      by_cases h : i = j
      · simp only [h, if_true, this, map_div₀, map_one, conj_conj]
      · simp [h, Ne.symm h])
    (by
      intro k hk1 hk3 i _ j _
      interval_cases k
      · by_cases h : i = j
        · simp [h]
        · simp [h, Ne.symm h]
      · simp
      · simp)
  refine ⟨r, h1, ?_, ?_⟩
  · rw [h2 1 (by norm_num) 1 (by norm_num)]
    simp [Fourier.density, polesDensity, Poles.freq, Mesh.mk']
    norm_num
  · rw [h2 1 (by norm_num) 0 (by norm_num)]
    simp [Fourier.density, polesDensity, Poles.freq, Mesh.mk']

/-- **C107, other functions.** Without these assumptions only the elements on and above the diagonal are densities: the others are their
conjugates. -/
theorem C107_upper (fit : List Arr → List Arr × ℝ) (beta : ℝ) (st : Stat) (nIw : ℤ) (N : ℕ) (gw : ℤ → Arr) (known : List Arr) (hk : 4 ≤ known.length)
    (h0 : zerothVanishes N N (known.getD 0 fun _ _ => 0)) :
    ∃ r, matsubara fit (Mesh.mk' beta st nIw false) N N gw known = .ok r ∧
      (∀ i j, i ≤ j → j < N → r i j = some (Fourier.density (Mesh.mk' beta st nIw false) (known.getD 1 (fun _ _ => 0) i j) (known.getD 2 (fun _ _ => 0) i j)
        (known.getD 3 (fun _ _ => 0) i j) fun n => gw n i j)) ∧
      ∀ i j, i < j → j < N → r j i = (r i j).map (starRingEnd ℂ) := by
  obtain ⟨r, h1, h2⟩ := loop_square (Mesh.mk' beta st nIw false) N (fun i => known.getD i fun _ _ => 0) gw
  refine ⟨r, by rw [matsubara_known fit (Mesh.mk' beta st nIw false) rfl N N gw known hk h0, h1]; rfl, fun i j hij hj => ?_, fun i j hij hj => ?_⟩
  · rw [h2 i (by omega) j hj, if_pos hij]
  · rw [h2 i (by omega) j hj, h2 j hj i (by omega), if_pos hij.le, if_neg (by omega)]
    rfl

/-- **C107 fails for functions that are not hermitian**: `G_01 = 1/(iw)` and `G_10 = 0` have the densities 1/2 and 0, and both are
returned as 1/2. -/
theorem C107_not_hermitian (fit : List Arr → List Arr × ℝ) (beta : ℝ) : ∃ r,
    let mom : List Arr := [fun _ _ => 0, fun i j => if i = 0 ∧ j = 1 then 1 else 0, fun _ _ => 0, fun _ _ => 0];
    let gw : ℤ → Arr := fun n i j => if i = 0 ∧ j = 1 then 1 / iw (Mesh.mk' beta .fermion 8 false) n else 0;
    matsubara fit (Mesh.mk' beta .fermion 8 false) 2 2 gw mom = .ok r ∧ r 0 1 = some (1 / 2) ∧ r 1 0 = some (1 / 2) ∧
      Fourier.density (Mesh.mk' beta .fermion 8 false) 0 0 0 (fun n => gw n 1 0) = 0 := by
  obtain ⟨r, h1, h2, h3⟩ := C107_upper fit beta .fermion 8 2
    (fun n i j => if i = 0 ∧ j = 1 then 1 / iw (Mesh.mk' beta .fermion 8 false) n else 0)
    [fun _ _ => 0, fun i j => if i = 0 ∧ j = 1 then 1 else 0, fun _ _ => 0, fun _ _ => 0] (by simp) (by intro i _ j _; simp; norm_num)
  have e : Fourier.density (Mesh.mk' beta .fermion 8 false) 1 0 0 (fun n => 1 / iw (Mesh.mk' beta .fermion 8 false) n) = 1 / 2 := by
    unfold Fourier.density
    simp [polesDensity, Poles.freq, Mesh.mk']
    norm_num
  have h01 := h2 0 1 (by norm_num) (by norm_num)
  simp only [List.getD_cons_succ, List.getD_cons_zero, and_self, if_true] at h01
  rw [e] at h01
  refine ⟨r, h1, h01, ?_, ?_⟩
  · rw [h3 0 1 (by norm_num) (by norm_num), h01]
    simp [map_ofNat]
  · simp [Fourier.density, polesDensity, Poles.freq, Mesh.mk']

/-- **C107, shape of the target.** A target with more columns than rows writes outside of the result; with more rows than columns the last
rows are never assigned. -/
theorem C107_shape (fit : List Arr → List Arr × ℝ) (beta : ℝ) (st : Stat) (nIw : ℤ) (N1 N2 : ℕ) (gw : ℤ → Arr) (known : List Arr) (hk : 4 ≤ known.length)
    (h0 : zerothVanishes N1 N2 (known.getD 0 fun _ _ => 0)) :
    (0 < N1 → N1 < N2 → matsubara fit (Mesh.mk' beta st nIw false) N1 N2 gw known = .undef) ∧
    (N2 < N1 → ∃ r, matsubara fit (Mesh.mk' beta st nIw false) N1 N2 gw known = .ok r ∧ ∀ i j, N2 ≤ i → r i j = none) := by
  rw [matsubara_known fit (Mesh.mk' beta st nIw false) rfl N1 N2 gw known hk h0]
  constructor
  · intro hp hlt
    have hbad : ∀ (L : List (ℕ × ℕ)) (r : Option (ℕ → ℕ → Option ℂ)), (∃ n ∈ L, n.1 < n.2 ∧ N1 ≤ n.2) →
        L.foldl (step (Mesh.mk' beta st nIw false) N1 N2 (fun i => known.getD i fun _ _ => 0) gw) r = none := by
      intro L
      have hnone : ∀ L : List (ℕ × ℕ), L.foldl (step (Mesh.mk' beta st nIw false) N1 N2 (fun i => known.getD i fun _ _ => 0) gw) none = none := by
        intro L
        induction L with
        | nil => rfl
        | cons n L ih => rw [List.foldl_cons]; exact ih
      induction L with
      | nil => rintro r ⟨n, hn, -⟩; simp at hn
      | cons n L ih =>
        rintro r ⟨k, hk, h1, h2⟩
        rw [List.foldl_cons]
        rcases List.mem_cons.mp hk with rfl | hk
        · have : step (Mesh.mk' beta st nIw false) N1 N2 (fun i => known.getD i fun _ _ => 0) gw r k = none := by
            unfold step
            cases r with
            | none => rfl
            | some r => simp only [Option.bind_some]; rw [if_pos h1, if_neg (by omega)]
          rw [this, hnone]
        · exact ih _ ⟨k, hk, h1, h2⟩
    rw [loop, hbad _ _ ⟨(0, N1), (mem_pairs N1 N2 0 N1).mpr ⟨hp, hlt, Nat.zero_le _⟩, hp, le_rfl⟩]
    rfl
  · intro hlt
    obtain ⟨r, h1, h2⟩ := loop_spec (Mesh.mk' beta st nIw false) N1 N2 (fun i => known.getD i fun _ _ => 0) gw (pairs N1 N2) (fun n hn => by
      obtain ⟨a, b⟩ := n
      rw [mem_pairs] at hn
      exact ⟨hn.2.2, fun _ => ⟨by simp only; omega, by simp only; omega⟩⟩) (fun _ _ => none)
    refine ⟨r, by rw [loop, h1]; rfl, fun i j hi => ?_⟩
    rw [h2]
    simp only [mem_pairs]
    rw [if_neg (by omega), if_neg (by omega)]

/-- a target of one row and two columns -/
example (fit : List Arr → List Arr × ℝ) : matsubara fit (Mesh.mk' 10 .fermion 4 false) 1 2 (fun _ _ _ => 0) [fun _ _ => 0, fun _ _ => 0, fun _ _ => 0, fun _ _ => 0] = .undef :=
  (C107_shape fit 10 .fermion 4 1 2 (fun _ _ _ => 0) [fun _ _ => 0, fun _ _ => 0, fun _ _ => 0, fun _ _ => 0] (by simp)
    (by intro i _ j _; simp; norm_num)).1 (by norm_num) (by norm_num)

/-- **C107, errors.** Meshes of positive frequencies and a zeroth moment throw; with fewer than four moments the result is that of the
fitted moments, or an exception when the fit is bad. -/
theorem C107_checks (fit : List Arr → List Arr × ℝ) (m : Mesh) (N1 N2 : ℕ) (gw : ℤ → Arr) (known : List Arr) :
    (m.positiveOnly = true → matsubara fit m N1 N2 gw known = .exn) ∧
    ((∃ i < N1, ∃ j < N2, 1e-8 ≤ ‖known.getD 0 (fun _ _ => 0) i j‖) → matsubara fit m N1 N2 gw known = .exn) ∧
    (m.positiveOnly = false → 1 ≤ known.length → known.length < 4 → zerothVanishes N1 N2 (known.getD 0 fun _ _ => 0) →
      (1e-2 ≤ (fit known).2 → matsubara fit m N1 N2 gw known = .exn) ∧
      ((fit known).2 < 1e-2 → 4 ≤ (fit known).1.length → matsubara fit m N1 N2 gw known = matsubara fit m N1 N2 gw (fit known).1)) ∧
    matsubara fit m N1 N2 gw [] = matsubara fit m N1 N2 gw [fun _ _ => 0] := by
  refine ⟨fun h => by simp [matsubara, h], ?_, ?_, ?_⟩
  · rintro ⟨i, hi, j, hj, h⟩
    have hne : known.isEmpty = false := by
      cases known with
      | nil => simp at h; norm_num at h
      | cons => rfl
    have hz : ¬ zerothVanishes N1 N2 (known.getD 0 fun _ _ => 0) := fun hz => absurd (hz i hi j hj) (not_lt.mpr h)
    unfold matsubara
    simp only [hne, Bool.false_eq_true, if_false]
    unfold checked
    simp only
    rw [if_pos hz]
    split_ifs <;> rfl
  · intro hm h1 h4 hz
    have hne : known.isEmpty = false := by
      cases known with
      | nil => simp at h1
      | cons => rfl
    constructor
    · intro he
      unfold matsubara
      simp only [hm, hne, Bool.false_eq_true, if_false]
      unfold checked
      simp only
      rw [if_neg (not_not_intro hz), if_pos h4, if_pos (not_lt.mpr he)]
    · intro he hl
      have hne' : (fit known).1.isEmpty = false := by
        cases hf : (fit known).1 with
        | nil => rw [hf] at hl; simp at hl
        | cons => rfl
      unfold matsubara
      simp only [hm, hne, hne', Bool.false_eq_true, if_false]
      unfold checked
      simp only
      rw [if_neg (not_not_intro hz), if_pos h4, if_neg (not_not_intro he), if_neg (by omega), if_neg (show ¬ (fit known).1.length < 4 by omega)]
  · rfl

/-- a constant function has a zeroth moment -/
example (fit : List Arr → List Arr × ℝ) : matsubara fit (Mesh.mk' 10 .fermion 4 false) 1 1 (fun _ _ _ => 3) [fun _ _ => 3] = .exn :=
  (C107_checks fit (Mesh.mk' 10 .fermion 4 false) 1 1 (fun _ _ _ => 3) [fun _ _ => 3]).2.1 ⟨0, by norm_num, 0, by norm_num, by simp; norm_num⟩

/-! ### sums over Matsubara frequencies -/

theorem indices_fermion (beta : ℝ) (N : ℕ) (f : ℤ → ℂ) :
    ((Mesh.mk' beta .fermion N false).indices.map f).sum = ∑ d ∈ Finset.range (2 * N), f ((d : ℤ) - N) := by
  have hs : (Mesh.mk' beta .fermion N false).size.toNat = 2 * N := by
    simp only [Mesh.size, Mesh.mk']
    simp only [Bool.false_eq_true, if_false, if_true]
    omega
  rw [Mesh.indices, hs, List.map_map]
  have hsum : ∀ (n : ℕ) (g : ℕ → ℂ), ∑ d ∈ Finset.range n, g d = ((List.range n).map g).sum := fun n g => rfl
  rw [hsum]
  congr 1
  apply List.map_congr_left
  intro d _
  simp only [Function.comp, Mesh.toIndex, Mesh.mk', Bool.false_eq_true, if_false, if_true]
  congr 1
  ring

theorem indices_boson (beta : ℝ) (N : ℕ) (f : ℤ → ℂ) :
    ((Mesh.mk' beta .boson (N + 1 : ℕ) false).indices.map f).sum = ∑ d ∈ Finset.range (2 * N + 1), f ((d : ℤ) - N) := by
  have hs : (Mesh.mk' beta .boson (N + 1 : ℕ) false).size.toNat = 2 * N + 1 := by
    simp only [Mesh.size, Mesh.mk']
    simp only [Bool.false_eq_true, if_false, reduceCtorEq]
    omega
  rw [Mesh.indices, hs, List.map_map]
  have hsum : ∀ (n : ℕ) (g : ℕ → ℂ), ∑ d ∈ Finset.range n, g d = ((List.range n).map g).sum := fun n g => rfl
  rw [hsum]
  congr 1
  apply List.map_congr_left
  intro d _
  simp only [Function.comp, Mesh.toIndex, Mesh.mk', Bool.false_eq_true, if_false, reduceCtorEq]
  congr 1
  push_cast
  ring

theorem step_fermion (f : ℤ → ℂ) (N : ℕ) : ∑ d ∈ Finset.range (2 * (N + 1)), f ((d : ℤ) - (N + 1 : ℕ)) =
    ∑ d ∈ Finset.range (2 * N), f ((d : ℤ) - N) + f N + f (-(N + 1)) := by
  rw [show 2 * (N + 1) = 2 * N + 1 + 1 by ring, Finset.sum_range_succ, Finset.sum_range_succ']
  have : ∀ d : ℕ, ((d + 1 : ℕ) : ℤ) - ((N + 1 : ℕ) : ℤ) = (d : ℤ) - N := fun d => by push_cast; ring
  simp only [this]
  rw [show ((2 * N : ℕ) : ℤ) - N = N by push_cast; ring, show ((0 : ℕ) : ℤ) - ((N + 1 : ℕ) : ℤ) = -(N + 1) by push_cast; ring]
  ring

theorem step_boson (f : ℤ → ℂ) (N : ℕ) : ∑ d ∈ Finset.range (2 * (N + 1) + 1), f ((d : ℤ) - (N + 1 : ℕ)) =
    ∑ d ∈ Finset.range (2 * N + 1), f ((d : ℤ) - N) + f (N + 1) + f (-(N + 1)) := by
  rw [show 2 * (N + 1) + 1 = (2 * N + 1) + 1 + 1 by ring, Finset.sum_range_succ, Finset.sum_range_succ']
  have : ∀ d : ℕ, ((d + 1 : ℕ) : ℤ) - ((N + 1 : ℕ) : ℤ) = (d : ℤ) - N := fun d => by push_cast; ring
  simp only [this]
  rw [show ((2 * N + 1 : ℕ) : ℤ) - N = N + 1 by push_cast; ring, show ((0 : ℕ) : ℤ) - ((N + 1 : ℕ) : ℤ) = -(N + 1) by push_cast; ring]
  ring

theorem sum_fermion (y : ℂ) (N : ℕ) : ∑ d ∈ Finset.range (2 * N), 1 / (y + (((d : ℤ) - N : ℤ) : ℂ)) =
    1 / y + ∑ j ∈ Finset.range N, cotTerm y j - 1 / (y + N) := by
  induction N with
  | zero => simp
  | succ N ih =>
    rw [step_fermion (fun n => 1 / (y + (n : ℂ))), ih, Finset.sum_range_succ, cotTerm]
    push_cast
    rw [show y + (-((N : ℂ) + 1)) = y - (N + 1) by ring]
    ring

theorem sum_boson (y : ℂ) (N : ℕ) : ∑ d ∈ Finset.range (2 * N + 1), 1 / (y + (((d : ℤ) - N : ℤ) : ℂ)) =
    1 / y + ∑ j ∈ Finset.range N, cotTerm y j := by
  induction N with
  | zero => simp
  | succ N ih =>
    rw [step_boson (fun n => 1 / (y + (n : ℂ))), ih, Finset.sum_range_succ, cotTerm]
    push_cast
    rw [show y + (-((N : ℂ) + 1)) = y - (N + 1) by ring]
    ring

theorem tendsto_tail (y : ℂ) : Tendsto (fun N : ℕ => 1 / (y + N)) atTop (𝓝 0) := by
  have h1 : Tendsto (fun N : ℕ => ‖(y + N : ℂ)‖) atTop atTop := by
    refine tendsto_atTop_mono (f := fun N : ℕ => (N : ℝ) - ‖y‖) (fun N => ?_) ?_
    · have := norm_sub_norm_le (N : ℂ) (-y)
      rw [norm_neg, Complex.norm_natCast, sub_neg_eq_add, add_comm] at this
      exact this
    · exact tendsto_atTop_add_const_right _ _ tendsto_natCast_atTop_atTop
  have h2 := tendsto_inv₀_cobounded.comp (tendsto_norm_atTop_iff_cobounded.mp h1)
  simpa [Function.comp_def] using h2

/-- the symmetric sum over the frequencies of one pole -/
theorem pole_sum (st : Stat) (beta : ℝ) (hb : 0 < beta) (e : ℝ) (he : st = .boson → e ≠ 0) :
    Tendsto (fun N : ℕ => ((Mesh.mk' beta st N false).indices.map fun n => 1 / (iw (Mesh.mk' beta st N false) n - e)).sum / (beta : ℂ)) atTop
      (𝓝 ((if st = .fermion then (occupation st beta e : ℂ) else -(occupation st beta e : ℂ)) - 1 / 2)) := by
  have hbc : (beta : ℂ) ≠ 0 := by exact_mod_cast hb.ne'
  have hpi : (Real.pi : ℂ) ≠ 0 := by exact_mod_cast Real.pi_ne_zero
  cases st with
  | fermion =>
    set y : ℂ := 1 / 2 + I * beta * e / (2 * Real.pi) with hy
    have hyre : y.re = 1 / 2 := by
      have : y = ((1 / 2 : ℝ) : ℂ) + ((beta * e / (2 * Real.pi) : ℝ) : ℂ) * I := by rw [hy]; push_cast; ring
      rw [this, add_re, ofReal_re, re_ofReal_mul, I_re, mul_zero, add_zero]
    have hyi : y ∈ integerComplement := by
      rw [integerComplement, Set.mem_compl_iff, Set.mem_range]
      rintro ⟨k, hk⟩
      have h1 := congrArg Complex.re hk
      rw [hyre, intCast_re] at h1
      have : (2 * k : ℤ) = 1 := by exact_mod_cast (by push_cast; linarith : ((2 * k : ℤ) : ℝ) = 1)
      omega
    have hterm : ∀ n : ℤ, 1 / (iw (Mesh.mk' beta .fermion 0 false) n - e) = beta / (2 * Real.pi * I) * (1 / (y + n)) := by
      intro n
      rw [Fourier.iw_eq]
      have e1 : (Real.pi * I * (2 * n + ((Stat.fermion).toInt : ℤ)) / beta : ℂ) - e = 2 * Real.pi * I / beta * (y + n) := by
        rw [hy]
        simp only [Stat.toInt]
        field_simp
        push_cast
        linear_combination (-(beta : ℂ) * e) * I_sq
      simp only [Mesh.mk']
      rw [e1, one_div, mul_inv, inv_div, one_div]
    have hlim : Tendsto (fun N : ℕ => beta / (2 * Real.pi * I) * (1 / y + ∑ j ∈ Finset.range N, cotTerm y j - 1 / (y + N)) / beta) atTop
        (𝓝 (beta / (2 * Real.pi * I) * (1 / y + (Real.pi * cot (Real.pi * y) - 1 / y) - 0) / beta)) :=
      (((tendsto_const_nhds.add (tendsto_logDeriv_euler_cot_sub hyi)).sub (tendsto_tail y)).const_mul _).div_const _
    have hval : beta / (2 * Real.pi * I) * (1 / y + (Real.pi * cot (Real.pi * y) - 1 / y) - 0) / beta =
        (if Stat.fermion = .fermion then (occupation .fermion beta e : ℂ) else -(occupation .fermion beta e : ℂ)) - 1 / 2 := by
      rw [if_pos rfl, occupation, if_pos rfl, cot_eq_exp_ratio]
      have e2 : exp (2 * I * (Real.pi * y)) = -(exp (beta * e))⁻¹ := by
        rw [hy, show 2 * I * (Real.pi * (1 / 2 + I * beta * e / (2 * Real.pi))) = Real.pi * I + (-(beta * e)) by
          field_simp; linear_combination (beta * e : ℂ) * I_sq, exp_add, exp_pi_mul_I, exp_neg]
        ring
      rw [e2]
      have h3 : exp (beta * e : ℂ) ≠ 0 := exp_ne_zero _
      have h4 : exp (beta * e : ℂ) + 1 ≠ 0 := by
        have : exp (beta * e : ℂ) + 1 = ((Real.exp (beta * e) + 1 : ℝ) : ℂ) := by push_cast; rfl
        rw [this]
        exact_mod_cast (by positivity : (Real.exp (beta * e) + 1 : ℝ) ≠ 0)
      push_cast
      have h5 : (1 : ℂ) - -(exp (beta * e : ℂ))⁻¹ = (exp (beta * e : ℂ) + 1) / exp (beta * e : ℂ) := by
        field_simp
        ring
      rw [h5]
      field_simp
      rw [I_sq]
      ring
    rw [← hval]
    refine hlim.congr fun N => ?_
    rw [indices_fermion]
    have : ∀ n, iw (Mesh.mk' beta .fermion N false) n = iw (Mesh.mk' beta .fermion 0 false) n := fun n => rfl
    simp only [this, hterm, ← Finset.mul_sum]
    rw [sum_fermion]
  | boson =>
    have he := he rfl
    set y : ℂ := I * beta * e / (2 * Real.pi) with hy
    have hyim : y.im = beta * e / (2 * Real.pi) := by
      have : y = ((beta * e / (2 * Real.pi) : ℝ) : ℂ) * I := by rw [hy]; push_cast; ring
      rw [this, im_ofReal_mul, I_im, mul_one]
    have hyi : y ∈ integerComplement := by
      rw [integerComplement, Set.mem_compl_iff, Set.mem_range]
      rintro ⟨k, hk⟩
      have h1 := congrArg Complex.im hk
      rw [hyim, intCast_im] at h1
      have : beta * e / (2 * Real.pi) ≠ 0 := div_ne_zero (mul_ne_zero hb.ne' he) (by positivity)
      exact this h1.symm
    have hterm : ∀ n : ℤ, 1 / (iw (Mesh.mk' beta .boson 0 false) n - e) = beta / (2 * Real.pi * I) * (1 / (y + n)) := by
      intro n
      rw [Fourier.iw_eq]
      have e1 : (Real.pi * I * (2 * n + ((Stat.boson).toInt : ℤ)) / beta : ℂ) - e = 2 * Real.pi * I / beta * (y + n) := by
        rw [hy]
        simp only [Stat.toInt]
        field_simp
        push_cast
        linear_combination (-(beta : ℂ) * e) * I_sq
      simp only [Mesh.mk']
      rw [e1, one_div, mul_inv, inv_div, one_div]
    have hlim : Tendsto (fun N : ℕ => beta / (2 * Real.pi * I) * (1 / y + ∑ j ∈ Finset.range N, cotTerm y j) / beta) atTop
        (𝓝 (beta / (2 * Real.pi * I) * (1 / y + (Real.pi * cot (Real.pi * y) - 1 / y)) / beta)) :=
      ((tendsto_const_nhds.add (tendsto_logDeriv_euler_cot_sub hyi)).const_mul _).div_const _
    have hval : beta / (2 * Real.pi * I) * (1 / y + (Real.pi * cot (Real.pi * y) - 1 / y)) / beta =
        (if Stat.boson = .fermion then (occupation .boson beta e : ℂ) else -(occupation .boson beta e : ℂ)) - 1 / 2 := by
      rw [if_neg (by simp), occupation, if_neg (by simp), cot_eq_exp_ratio]
      have e2 : exp (2 * I * (Real.pi * y)) = (exp (beta * e))⁻¹ := by
        rw [hy, show 2 * I * (Real.pi * (I * beta * e / (2 * Real.pi))) = -(beta * e) by
          field_simp; linear_combination (e : ℂ) * I_sq, exp_neg]
      rw [e2]
      have h3 : exp (beta * e : ℂ) ≠ 0 := exp_ne_zero _
      have h4 : exp (beta * e : ℂ) - 1 ≠ 0 := by
        have : exp (beta * e : ℂ) - 1 = ((Real.exp (beta * e) - 1 : ℝ) : ℂ) := by push_cast; rfl
        rw [this]
        have h0 : Real.exp (beta * e) ≠ 1 := by
          rw [Ne, Real.exp_eq_one_iff]
          exact mul_ne_zero hb.ne' he
        exact_mod_cast (sub_ne_zero.mpr h0)
      push_cast
      have h5 : (1 : ℂ) - (exp (beta * e : ℂ))⁻¹ = (exp (beta * e : ℂ) - 1) / exp (beta * e : ℂ) := by
        field_simp
      rw [h5]
      field_simp
      rw [I_sq]
      ring
    rw [← hval]
    rw [← tendsto_add_atTop_iff_nat 1]
    refine hlim.congr fun N => ?_
    rw [indices_boson]
    have : ∀ n, iw (Mesh.mk' beta .boson (N + 1 : ℕ) false) n = iw (Mesh.mk' beta .boson 0 false) n := fun n => rfl
    simp only [this, hterm, ← Finset.mul_sum]
    rw [sum_boson]

/-- **C108.** A function with any number of poles: as the number of frequencies grows, the density computed from it tends to the sum of
the occupations of the poles, for every second and third moment; an error of the first moment remains by one half. -/
theorem C108_limit (st : Stat) (beta : ℝ) (hb : 0 < beta) (l : List (ℝ × ℂ)) (hl : st = .boson → ∀ t ∈ l, t.1 ≠ 0) (m1 m2 m3 : ℂ) :
    Tendsto (fun N : ℕ => Fourier.density (Mesh.mk' beta st N false) m1 m2 m3
      fun n => (l.map fun t => t.2 / (iw (Mesh.mk' beta st N false) n - t.1)).sum) atTop
      (𝓝 ((l.map fun t => t.2 * (occupation st beta t.1 : ℂ)).sum + (if st = .fermion then 1 else -1) * (m1 - (l.map Prod.snd).sum) / 2)) := by
  set S : ℕ → ℝ → ℂ := fun N e => ((Mesh.mk' beta st N false).indices.map fun n => 1 / (iw (Mesh.mk' beta st N false) n - e)).sum / (beta : ℂ) with hS
  set T : ℝ → ℂ := fun e => (if st = .fermion then (occupation st beta e : ℂ) else -(occupation st beta e : ℂ)) - 1 / 2 with hT
  have hST : ∀ e : ℝ, (st = .boson → e ≠ 0) → Tendsto (fun N => S N e) atTop (𝓝 (T e)) := fun e he => pole_sum st beta hb e he
  set p := polesDensity st m1 m2 m3 with hp
  have hpb : st = .boson → p.b1 ≠ 0 ∧ p.b2 ≠ 0 ∧ p.b3 ≠ 0 := by
    intro h
    rw [hp, polesDensity, if_neg (by rw [h]; simp)]
    norm_num
  have hpa : p.a1 + p.a2 + p.a3 = m1 := by
    rw [hp, polesDensity]
    split_ifs <;> ring
  have hsum : ∀ N : ℕ, ((Mesh.mk' beta st N false).indices.map fun n => (l.map fun t => t.2 / (iw (Mesh.mk' beta st N false) n - t.1)).sum -
      p.freq (iw (Mesh.mk' beta st N false) n)).sum / (beta : ℂ) = (l.map fun t => t.2 * S N t.1).sum - (p.a1 * S N p.b1 + p.a2 * S N p.b2 + p.a3 * S N p.b3) := by
    intro N
    simp only [hS]
    induction (Mesh.mk' beta st N false).indices with
    | nil => simp
    | cons n ns ih =>
      rw [List.map_cons, List.sum_cons, add_div, ih]
      have e1 : ∀ e : ℝ, ((n :: ns).map fun n => 1 / (iw (Mesh.mk' beta st N false) n - e)).sum / (beta : ℂ) =
          1 / (iw (Mesh.mk' beta st N false) n - e) / beta + (ns.map fun n => 1 / (iw (Mesh.mk' beta st N false) n - e)).sum / (beta : ℂ) := by
        intro e; rw [List.map_cons, List.sum_cons, add_div]
      simp only [e1, mul_add]
      rw [List.sum_map_add, Fourier.Poles.freq]
      have e2 : (l.map fun t => t.2 * (1 / (iw (Mesh.mk' beta st N false) n - t.1) / beta)).sum =
          (l.map fun t => t.2 / (iw (Mesh.mk' beta st N false) n - t.1)).sum / (beta : ℂ) := by
        rw [div_eq_mul_inv, ← List.sum_map_mul_right]
        congr 1
        exact List.map_congr_left fun t _ => by ring
      rw [e2]
      ring
  have hform : ∀ N : ℕ, Fourier.density (Mesh.mk' beta st N false) m1 m2 m3
      (fun n => (l.map fun t => t.2 / (iw (Mesh.mk' beta st N false) n - t.1)).sum) =
      ((l.map fun t => t.2 * S N t.1).sum - (p.a1 * S N p.b1 + p.a2 * S N p.b2 + p.a3 * S N p.b3) + m1 +
        (((if st = .fermion then -1 else 1 : ℝ) : ℂ) * p.a1 / ((-(if st = .fermion then -1 else 1 : ℝ) + Real.exp (-beta * p.b1) : ℝ) : ℂ)) +
        (((if st = .fermion then -1 else 1 : ℝ) : ℂ) * p.a2 / ((-(if st = .fermion then -1 else 1 : ℝ) + Real.exp (-beta * p.b2) : ℝ) : ℂ)) +
        (((if st = .fermion then -1 else 1 : ℝ) : ℂ) * p.a3 / ((-(if st = .fermion then -1 else 1 : ℝ) + Real.exp (-beta * p.b3) : ℝ) : ℂ))) *
        -((if st = .fermion then -1 else 1 : ℝ) : ℂ) := by
    intro N
    rw [← hsum N]
    rfl
  simp only [hform]
  have hl' : Tendsto (fun N => (l.map fun t => t.2 * S N t.1).sum) atTop (𝓝 (l.map fun t => t.2 * T t.1).sum) :=
    tendsto_list_sum l fun t ht => (hST t.1 fun h => hl h t ht).const_mul _
  have h1 := ((hST p.b1 fun h => (hpb h).1).const_mul p.a1)
  have h2 := ((hST p.b2 fun h => (hpb h).2.1).const_mul p.a2)
  have h3 := ((hST p.b3 fun h => (hpb h).2.2).const_mul p.a3)
  have hlim := (((((hl'.sub ((h1.add h2).add h3)).add_const m1).add_const
    (((if st = .fermion then -1 else 1 : ℝ) : ℂ) * p.a1 / ((-(if st = .fermion then -1 else 1 : ℝ) + Real.exp (-beta * p.b1) : ℝ) : ℂ))).add_const
    (((if st = .fermion then -1 else 1 : ℝ) : ℂ) * p.a2 / ((-(if st = .fermion then -1 else 1 : ℝ) + Real.exp (-beta * p.b2) : ℝ) : ℂ))).add_const
    (((if st = .fermion then -1 else 1 : ℝ) : ℂ) * p.a3 / ((-(if st = .fermion then -1 else 1 : ℝ) + Real.exp (-beta * p.b3) : ℝ) : ℂ))).mul_const
      (-((if st = .fermion then -1 else 1 : ℝ) : ℂ))
  convert! hlim using 2
  have hpole : ∀ (a : ℂ) (b : ℝ), (st = .boson → b ≠ 0) →
      ((if st = .fermion then -1 else 1 : ℝ) : ℂ) * a / ((-(if st = .fermion then -1 else 1 : ℝ) + Real.exp (-beta * b) : ℝ) : ℂ) = a * T b - a / 2 := by
    intro a b hb0
    have h0 := Real.exp_pos (beta * b)
    rw [show -beta * b = -(beta * b) by ring, Real.exp_neg]
    simp only [hT, occupation]
    cases st with
    | fermion =>
      have h4 : Real.exp (beta * b) + 1 ≠ 0 := by positivity
      have h5 : (-(-1 : ℝ) + (Real.exp (beta * b))⁻¹) = (Real.exp (beta * b) + 1) / Real.exp (beta * b) := by field_simp; try ring
      simp only [if_true, h5]
      have h4c : (Real.exp (beta * b) : ℂ) + 1 ≠ 0 := by exact_mod_cast h4
      have h0c : (Real.exp (beta * b) : ℂ) ≠ 0 := by exact_mod_cast h0.ne'
      push_cast at h4c h0c ⊢
      field_simp
      ring
    | boson =>
      have hne : Real.exp (beta * b) ≠ 1 := by
        rw [Ne, Real.exp_eq_one_iff]
        exact mul_ne_zero hb.ne' (hb0 rfl)
      have h4 : Real.exp (beta * b) - 1 ≠ 0 := sub_ne_zero.mpr hne
      have h5 : (-(1 : ℝ) + (Real.exp (beta * b))⁻¹) = -((Real.exp (beta * b) - 1) / Real.exp (beta * b)) := by field_simp; ring
      simp only [reduceCtorEq, if_false, h5]
      have h4c : (Real.exp (beta * b) : ℂ) - 1 ≠ 0 := by exact_mod_cast h4
      have h0c : (Real.exp (beta * b) : ℂ) ≠ 0 := by exact_mod_cast h0.ne'
      push_cast at h4c h0c ⊢
      field_simp
      ring
  rw [hpole _ _ fun h => (hpb h).1, hpole _ _ fun h => (hpb h).2.1, hpole _ _ fun h => (hpb h).2.2]
  have hT' : (l.map fun t => t.2 * T t.1).sum = (if st = .fermion then 1 else -1) * (l.map fun t => t.2 * (occupation st beta t.1 : ℂ)).sum -
      (l.map Prod.snd).sum / 2 := by
    clear hl' hlim hform hsum hl
    induction l with
    | nil => simp
    | cons t l ih =>
      simp only [List.map_cons, List.sum_cons]
      rw [ih, show T t.1 = (if st = .fermion then (occupation st beta t.1 : ℂ) else -(occupation st beta t.1 : ℂ)) - 1 / 2 from rfl]
      split_ifs <;> ring
  rw [hT']
  split_ifs
  · push_cast
    linear_combination (1 / 2 : ℂ) * hpa
  · push_cast
    linear_combination (-1 / 2 : ℂ) * hpa

/-- a level at `log 2` for `beta = 1` with its first moment: a third of an electron; a boson of that energy: one -/
example (m2 m3 : ℂ) : Tendsto (fun N : ℕ => Fourier.density (Mesh.mk' 1 .fermion N false) 1 m2 m3
      fun n => ([(Real.log 2, 1)].map fun t : ℝ × ℂ => t.2 / (iw (Mesh.mk' 1 .fermion N false) n - t.1)).sum) atTop (𝓝 (1 / 3)) ∧
    Tendsto (fun N : ℕ => Fourier.density (Mesh.mk' 1 .boson N false) 1 m2 m3
      fun n => ([(Real.log 2, 1)].map fun t : ℝ × ℂ => t.2 / (iw (Mesh.mk' 1 .boson N false) n - t.1)).sum) atTop (𝓝 1) := by
  have hl : Real.log 2 ≠ 0 := (Real.log_pos (by norm_num)).ne'
  constructor
  · have := C108_limit .fermion 1 one_pos [(Real.log 2, 1)] (by simp) 1 m2 m3
    convert this using 2
    simp [occupation, -Real.exp_log, -ofReal_log]
    rw [show cexp (log 2) = 2 from exp_log two_ne_zero]
    norm_num
  · have := C108_limit .boson 1 one_pos [(Real.log 2, 1)] (by simp [hl]) 1 m2 m3
    convert this using 2
    simp [occupation, -Real.exp_log, -ofReal_log]
    rw [show cexp (log 2) = 2 from exp_log two_ne_zero]
    norm_num

/-- **C108, interacting systems.** The density computed from the Matsubara Green's function of an exactly diagonalised system tends to
the expectation value of `c^dagger_j c_i` in the canonical ensemble, up to the threshold below which residues are dropped. -/
theorem C108_atomic {s : Diag.Sys ℝ ℂ} {h : ℕ → ℕ → ℂ} (hs : s.Spectral h) (n1 n2 : ℕ) (c cd : List (Diag.Mono ℂ)) (hc : s.Conn n1 n2 c cd)
    (beta eps : ℝ) (hb : 0 < beta) (heps : 0 ≤ eps) (m2 m3 : ℂ) :
    ∃ z, Tendsto (fun N : ℕ => Fourier.density (Mesh.mk' beta .fermion N false) ((s.lehmann beta eps [] n1 n2 c cd).map Prod.snd).sum m2 m3
        fun n => Diag.gIw (s.lehmann beta eps [] n1 n2 c cd) (iw (Mesh.mk' beta .fermion N false) n)) atTop (𝓝 z) ∧
      ‖z - Diag.gibbs beta (s.fock h) (s.fock (Diag.opEntry cd) * s.fock (Diag.opEntry c))‖ ≤
        eps * ((∑ b ∈ Finset.range s.n, s.dim b : ℕ) : ℝ) ^ 2 := by
  set l := s.lehmann beta eps [] n1 n2 c cd with hl
  refine ⟨(l.map fun t => t.2 * (occupation .fermion beta t.1 : ℂ)).sum, ?_, ?_⟩
  · have := C108_limit .fermion beta hb l (by simp) (l.map Prod.snd).sum m2 m3
    rw [sub_self, mul_zero, zero_div, add_zero] at this
    convert! this using 3
    funext n
    rw [Diag.gIw, Diag.foldl_list, zero_add]
  · have h1 := Diag.C93_green hs n1 n2 c cd hc beta eps heps beta hb.le le_rfl
    rw [← hl] at h1
    have e1 : Diag.gTau beta l beta = -(l.map fun t => t.2 * (occupation .fermion beta t.1 : ℂ)).sum := by
      rw [Diag.gTau_eq, Diag.lsum, ← neg_one_mul (List.sum _), ← List.sum_map_mul_left]
      congr 1
      apply List.map_congr_left
      intro t _
      rw [neg_one_mul, ← mul_neg]
      congr 1
      rw [occupation, if_pos rfl, ← ofReal_neg]
      congr 2
      rw [neg_mul, Real.exp_neg]
      have h0 := Real.exp_pos (beta * t.1)
      field_simp
    have e2 : Diag.greenTau beta (s.fock h) (s.fock (Diag.opEntry c)) (s.fock (Diag.opEntry cd)) beta =
        -Diag.gibbs beta (s.fock h) (s.fock (Diag.opEntry cd) * s.fock (Diag.opEntry c)) := by
      rw [Diag.greenTau, Diag.gibbs, sub_self, neg_zero, zero_smul, NormedSpace.exp_zero, one_mul]
      congr 2
      rw [mul_assoc, Matrix.trace_mul_comm, mul_assoc]
    rw [e1, e2, neg_sub_neg, norm_sub_rev] at h1
    exact h1

/-! ### C109, C110: real frequencies -/

theorem finish_eq (dw : ℝ) (res : Matrix (Fin d) (Fin d) ℂ) : finish dw res = (dw : ℂ) • spectral res := by
  ext i j
  have hpi : (Real.pi : ℂ) ≠ 0 := by exact_mod_cast Real.pi_ne_zero
  simp only [finish, spectral, Matrix.smul_apply, Matrix.add_apply, Matrix.sub_apply, Matrix.conjTranspose_apply, Matrix.of_apply, smul_eq_mul]
  by_cases h : i = j
  · subst h
    simp only [if_true]
    have e1 : star (I * (dw : ℂ) / Real.pi * (I * ((res i i).im : ℂ))) = I * dw / Real.pi * (I * ((res i i).im : ℂ)) := by
      have : (I * (dw : ℂ) / Real.pi * (I * ((res i i).im : ℂ))) = ((-(dw / Real.pi * (res i i).im) : ℝ) : ℂ) := by
        push_cast
        linear_combination ((dw : ℂ) / Real.pi * (res i i).im) * I_sq
      rw [this]
      exact conj_ofReal _
    have e2 : res i i - star (res i i) = 2 * I * ((res i i).im : ℂ) := by
      apply Complex.ext <;> simp; ring
    rw [e1, e2]
    field_simp
    norm_num
    ring
  · rw [if_neg h, if_neg (fun h' => h h'.symm)]
    have e1 : star (I * (dw : ℂ) / Real.pi * res j i) = -(I * dw / Real.pi) * star (res j i) := by
      simp only [star_mul', star_div₀]
      simp [conj_ofReal]
      ring
    rw [e1]
    field_simp
    ring

theorem spectral_add (a b : Matrix (Fin d) (Fin d) ℂ) : spectral (a + b) = spectral a + spectral b := by
  rw [spectral, spectral, spectral, Matrix.conjTranspose_add, ← smul_add]
  congr 1
  abel

theorem spectral_smul (x : ℝ) (a : Matrix (Fin d) (Fin d) ℂ) : spectral ((x : ℂ) • a) = (x : ℂ) • spectral a := by
  rw [spectral, spectral, Matrix.conjTranspose_smul, show star (x : ℂ) = x from conj_ofReal x, ← smul_sub, smul_comm]

theorem spectral_zero : spectral (0 : Matrix (Fin d) (Fin d) ℂ) = 0 := by simp [spectral]

theorem spectral_sub (a b : Matrix (Fin d) (Fin d) ℂ) : spectral (a - b) = spectral a - spectral b := by
  rw [sub_eq_add_neg, spectral_add, sub_eq_add_neg, show (-b) = ((-1 : ℝ) : ℂ) • b by simp, spectral_smul]
  simp

theorem spectral_foldl (g : ℕ → Matrix (Fin d) (Fin d) ℂ) (l : List ℕ) (r : Matrix (Fin d) (Fin d) ℂ) :
    spectral (l.foldl (fun r k => r + g k) r) = spectral r + (l.map fun k => spectral (g k)).sum := by
  induction l generalizing r with
  | nil => simp
  | cons k l ih => rw [List.foldl_cons, ih, spectral_add, List.map_cons, List.sum_cons, add_assoc]

theorem spectral_hermitian (g : Matrix (Fin d) (Fin d) ℂ) : (spectral g).IsHermitian := by
  unfold Matrix.IsHermitian spectral
  rw [Matrix.conjTranspose_smul, Matrix.conjTranspose_sub, Matrix.conjTranspose_conjTranspose]
  have : star (I / (2 * Real.pi) : ℂ) = -(I / (2 * Real.pi)) := by
    rw [star_div₀]
    simp [map_ofNat]
    ring
  rw [this, neg_smul, ← smul_neg, neg_sub]

/-- the sum of the whole intervals below the point `n` -/
theorem range_sum (S : ℕ → Matrix (Fin d) (Fin d) ℂ) (n : ℕ) :
    (0.5 : ℂ) • S 0 + ((List.range' 1 n).map S).sum - (0.5 : ℂ) • S n = ∑ k ∈ Finset.range n, (0.5 : ℂ) • (S k + S (k + 1)) := by
  induction n with
  | zero => simp
  | succ n ih =>
    rw [Finset.sum_range_succ, ← ih, List.range'_concat, List.map_append, List.sum_append]
    simp only [List.map_cons, List.map_nil, List.sum_cons, List.sum_nil, one_mul]
    rw [show 1 + n = n + 1 by ring]
    have : S (n + 1) = (0.5 : ℂ) • S (n + 1) + (0.5 : ℂ) • S (n + 1) := by rw [← add_smul]; norm_num
    rw [smul_add]
    nth_rewrite 1 [this]
    abel

/-- the two results of the zero-temperature density, as weighted sums of the spectral function -/
theorem zeroT_eq (wmin wmax : ℝ) (N : ℕ) (g : ℕ → Matrix (Fin d) (Fin d) ℂ) (hw : wmin < 0) (hN : 2 ≤ N) (hlt : wmin < wmax) (n : ℕ)
    (hn : ⌊-wmin / delta wmin wmax N⌋₊ = n) (a : ℝ) (ha : a = (-wmin - n * delta wmin wmax N) / delta wmin wmax N) :
    (n < N → a = 0 → zeroT wmin wmax N g = .ok ((delta wmin wmax N : ℂ) • ∑ k ∈ Finset.range n, (0.5 : ℂ) • (spectral (g k) + spectral (g (k + 1))))) ∧
    (n + 1 < N → 1e-9 < |a * delta wmin wmax N| → zeroT wmin wmax N g = .ok ((delta wmin wmax N : ℂ) • (∑ k ∈ Finset.range n, (0.5 : ℂ) • (spectral (g k) + spectral (g (k + 1))) +
      (0.5 : ℂ) • ((a * a : ℂ) • spectral (g n) + (a * (2 - a) : ℂ) • spectral (g (n + 1)))))) := by
  set dw := delta wmin wmax N with hdw
  have hdw0 : 0 < dw := by
    rw [hdw, delta, if_neg (by omega)]
    apply div_pos (by linarith)
    have : (2 : ℝ) ≤ N := by exact_mod_cast hN
    linarith
  have h05 : (0.5 : ℂ) = ((0.5 : ℝ) : ℂ) := by norm_num
  have hsum : spectral ((List.range' 1 n).foldl (fun r k => r + g k) ((0.5 : ℂ) • g 0)) =
      (0.5 : ℂ) • spectral (g 0) + ((List.range' 1 n).map fun k => spectral (g k)).sum := by
    rw [spectral_foldl, h05, spectral_smul]
  have hR := range_sum (fun k => spectral (g k)) n
  have hda : -wmin - (((n + 1 : ℕ) : ℝ) - 1) * dw = a * dw := by
    rw [ha, div_mul_cancel₀ _ hdw0.ne']
    push_cast
    ring
  constructor
  · intro hnN ha0
    unfold zeroT
    simp only
    rw [← hdw, if_neg (by rintro (h | h | h); exacts [h hw, by omega, hdw0.ne' h]), hn, if_neg (by omega), hda, ha0]
    simp only [zero_mul, abs_zero]
    rw [if_neg (by norm_num), Nat.add_sub_cancel, finish_eq, spectral_sub, hsum, h05, spectral_smul, ← h05, hR]
  · intro hnN ha0
    unfold zeroT
    simp only
    rw [← hdw, if_neg (by rintro (h | h | h); exacts [h hw, by omega, hdw0.ne' h]), hn, if_neg (by omega), hda, if_pos ha0, if_neg (by omega),
      Nat.add_sub_cancel, finish_eq, spectral_add, hsum, mul_div_cancel_right₀ _ hdw0.ne', h05, spectral_smul, ← h05, spectral_add]
    have e1 : ((a : ℂ) * a - 1) = ((a * a - 1 : ℝ) : ℂ) := by push_cast; ring
    have e2 : ((a : ℂ) * (2 - a)) = ((a * (2 - a) : ℝ) : ℂ) := by push_cast; ring
    rw [e1, e2, spectral_smul, spectral_smul, ← e1, ← e2, ← hR]
    congr 2
    rw [sub_smul, one_smul, smul_add, smul_add, smul_sub]
    abel

theorem interpolate_eq (wmin wmax : ℝ) (N : ℕ) (hN : 2 ≤ N) (hlt : wmin < wmax) (f : ℕ → ℂ) (n : ℕ) (hn : n + 1 < N) (w : ℝ) (h0 : 0 ≤ w) (h1 : w ≤ 1) :
    interpolate wmin wmax N f (wmin + (n + w) * delta wmin wmax N) = f n + w * (f (n + 1) - f n) := by
  have hN' : (2 : ℝ) ≤ N := by exact_mod_cast hN
  have hdw : delta wmin wmax N = (wmax - wmin) / ((N : ℝ) - 1) := by rw [delta, if_neg (by omega)]
  have hdw0 : 0 < delta wmin wmax N := by rw [hdw]; exact div_pos (by linarith) (by linarith)
  obtain ⟨m, hm, hev, -⟩ := Linear.C42_interpolation (L := (N : ℤ)) hlt (by exact_mod_cast hN) (fun k : ℤ => f k.toNat)
  have hle : wmin + (n + w) * delta wmin wmax N ≤ wmax := by
    have hnN : (n : ℝ) + 1 ≤ N - 1 := by
      have : n + 2 ≤ N := by omega
      have : ((n + 2 : ℕ) : ℝ) ≤ N := by exact_mod_cast this
      push_cast at this
      linarith
    have : (n + w) * delta wmin wmax N ≤ (N - 1) * delta wmin wmax N := mul_le_mul_of_nonneg_right (by linarith) hdw0.le
    rw [hdw, mul_div_cancel₀ _ (by linarith : (N : ℝ) - 1 ≠ 0), ← hdw] at this
    linarith
  obtain ⟨i, w', i0, i1, w0, w1, hx, he⟩ := hev (wmin + (n + w) * delta wmin wmax N) (by have : (0 : ℝ) ≤ n := n.cast_nonneg; nlinarith) hle
  rw [interpolate, hm, Option.bind_some, he, Option.getD_some]
  have key : (i : ℝ) + w' = n + w := by
    unfold Linear.point at hx
    have hN1 : ((N : ℤ) : ℝ) - 1 = (N : ℝ) - 1 := by push_cast; rfl
    rw [hN1, ← hdw] at hx
    have : ((i : ℝ) + w' - (n + w)) * delta wmin wmax N = 0 := by push_cast at hx; linarith
    rcases mul_eq_zero.mp this with h | h
    · linarith
    · exact absurd h hdw0.ne'
  simp only [real_smul]
  rcases lt_trichotomy i (n : ℤ) with h | h | h
  · have h2 : (i : ℝ) + 1 ≤ n := by exact_mod_cast (by omega : i + 1 ≤ (n : ℤ))
    have hw' : w' = 1 := by linarith
    have hw : w = 0 := by linarith
    have hi : i + 1 = (n : ℤ) := by
      have : (i : ℝ) + 1 = n := by linarith
      exact_mod_cast this
    rw [hw', hw, hi]
    simp
  · have hw : w' = w := by
      rw [h] at key
      push_cast at key
      linarith
    rw [hw, h, show ((n : ℤ) + 1).toNat = n + 1 by omega, show ((n : ℤ)).toNat = n by omega]
    push_cast
    ring
  · have h2 : (n : ℝ) + 1 ≤ i := by exact_mod_cast (by omega : (n : ℤ) + 1 ≤ i)
    have hw' : w' = 0 := by linarith
    have hw : w = 1 := by linarith
    have hi : i = (n : ℤ) + 1 := by
      have : (i : ℝ) = n + 1 := by linarith
      exact_mod_cast this
    rw [hw', hw, hi, show ((n : ℤ) + 1).toNat = n + 1 by omega]
    simp

/-- integral of the interpolation over a part of one interval -/
theorem integral_interval (wmin wmax : ℝ) (N : ℕ) (hN : 2 ≤ N) (hlt : wmin < wmax) (f : ℕ → ℂ) (n : ℕ) (hn : n + 1 < N) (a : ℝ) (h0 : 0 ≤ a) (h1 : a ≤ 1) :
    IntervalIntegrable (interpolate wmin wmax N f) MeasureTheory.volume (wmin + n * delta wmin wmax N) (wmin + (n + a) * delta wmin wmax N) ∧
    ∫ x in (wmin + n * delta wmin wmax N)..(wmin + (n + a) * delta wmin wmax N), interpolate wmin wmax N f x =
      delta wmin wmax N * (a * f n + a ^ 2 / 2 * (f (n + 1) - f n)) := by
  set dw := delta wmin wmax N with hdwe
  have hN' : (2 : ℝ) ≤ N := by exact_mod_cast hN
  have hdw0 : 0 < dw := by rw [hdwe, delta, if_neg (by omega)]; exact div_pos (by linarith) (by linarith)
  have hdwc : (dw : ℂ) ≠ 0 := by exact_mod_cast hdw0.ne'
  have hle : wmin + n * dw ≤ wmin + (n + a) * dw := by nlinarith
  have hcongr : Set.EqOn (interpolate wmin wmax N f) (fun x : ℝ => f n + (((x - wmin) / dw - n : ℝ) : ℂ) * (f (n + 1) - f n))
      (Set.uIcc (wmin + n * dw) (wmin + (n + a) * dw)) := by
    intro x hx
    rw [Set.uIcc_of_le hle, Set.mem_Icc] at hx
    have hw0 : 0 ≤ (x - wmin) / dw - n := by rw [sub_nonneg, le_div_iff₀ hdw0]; linarith [hx.1]
    have hw1 : (x - wmin) / dw - n ≤ a := by rw [sub_le_iff_le_add, div_le_iff₀ hdw0]; linarith [hx.2]
    have := interpolate_eq wmin wmax N hN hlt f n hn ((x - wmin) / dw - n) hw0 (hw1.trans h1)
    rw [← hdwe, show wmin + (n + ((x - wmin) / dw - n)) * dw = x by field_simp; ring] at this
    exact this
  have hcont : Continuous (fun x : ℝ => f n + (((x - wmin) / dw - n : ℝ) : ℂ) * (f (n + 1) - f n)) := by fun_prop
  refine ⟨(hcont.continuousOn.congr hcongr).intervalIntegrable, ?_⟩
  · rw [intervalIntegral.integral_congr hcongr]
    have hder : ∀ x ∈ Set.uIcc (wmin + n * dw) (wmin + (n + a) * dw),
        HasDerivAt (fun x : ℝ => f n * (x : ℂ) + (dw : ℂ) / 2 * ((((x - wmin) / dw - n : ℝ) : ℂ) ^ 2) * (f (n + 1) - f n))
          (f n + (((x - wmin) / dw - n : ℝ) : ℂ) * (f (n + 1) - f n)) x := by
      intro x _
      have hx : HasDerivAt (fun x : ℝ => (x : ℂ)) 1 x := Complex.ofRealCLM.hasDerivAt
      have hl : HasDerivAt (fun x : ℝ => (((x - wmin) / dw - n : ℝ) : ℂ)) ((1 : ℂ) / dw) x := by
        have h := ((hx.sub_const (wmin : ℂ)).div_const (dw : ℂ)).sub_const (n : ℂ)
        refine h.congr_of_eventuallyEq (Filter.Eventually.of_forall fun y => ?_)
        push_cast
        rfl
      have h := (hx.const_mul (f n)).add (((hl.pow 2).const_mul ((dw : ℂ) / 2)).mul_const (f (n + 1) - f n))
      convert! h using 1
      field_simp
      ring
    rw [intervalIntegral.integral_eq_sub_of_hasDerivAt hder (hcont.intervalIntegrable _ _)]
    push_cast
    field_simp
    ring

theorem integral_total (wmin wmax : ℝ) (N : ℕ) (hN : 2 ≤ N) (hlt : wmin < wmax) (f : ℕ → ℂ) (n : ℕ) (hn : n < N) :
    IntervalIntegrable (interpolate wmin wmax N f) MeasureTheory.volume wmin (wmin + n * delta wmin wmax N) ∧
    ∫ x in wmin..(wmin + n * delta wmin wmax N), interpolate wmin wmax N f x = delta wmin wmax N * ∑ k ∈ Finset.range n, (f k + f (k + 1)) / 2 := by
  induction n with
  | zero => simp
  | succ n ih =>
    obtain ⟨i1, e1⟩ := ih (by omega)
    obtain ⟨i2, e2⟩ := integral_interval wmin wmax N hN hlt f n hn 1 zero_le_one le_rfl
    push_cast
    refine ⟨i1.trans i2, ?_⟩
    rw [← intervalIntegral.integral_add_adjacent_intervals i1 i2, e1, e2, Finset.sum_range_succ]
    push_cast
    ring

/-- **C109.** When zero is a point of the mesh, the zero-temperature density is the integral, up to zero, of the spectral function as the
evaluator interpolates it. -/
theorem C109_on_mesh (wmin wmax : ℝ) (N : ℕ) (g : ℕ → Matrix (Fin d) (Fin d) ℂ) (hN : 2 ≤ N) (hlt : wmin < wmax) (hw : wmin < 0) (n : ℕ) (hn : n < N)
    (h0 : wmin + n * ((wmax - wmin) / (N - 1)) = 0) :
    ∃ R, zeroT wmin wmax N g = .ok R ∧ ∀ i j, R i j = ∫ x in wmin..0, interpolate wmin wmax N (fun k => spectral (g k) i j) x := by
  have hN' : (2 : ℝ) ≤ N := by exact_mod_cast hN
  have hdw : delta wmin wmax N = (wmax - wmin) / ((N : ℝ) - 1) := by rw [delta, if_neg (by omega)]
  have hdw0 : 0 < delta wmin wmax N := by rw [hdw]; exact div_pos (by linarith) (by linarith)
  rw [← hdw] at h0
  have hfl : ⌊-wmin / delta wmin wmax N⌋₊ = n := by
    rw [show -wmin / delta wmin wmax N = n by rw [div_eq_iff hdw0.ne']; linarith]
    exact Nat.floor_natCast n
  refine ⟨_, (zeroT_eq wmin wmax N g hw hN hlt n hfl 0 (by rw [eq_comm, div_eq_zero_iff]; left; linarith)).1 hn rfl, fun i j => ?_⟩
  have := (integral_total wmin wmax N hN hlt (fun k => spectral (g k) i j) n hn).2
  rw [h0] at this
  rw [this, Matrix.smul_apply, Matrix.sum_apply, smul_eq_mul]
  congr 1
  apply Finset.sum_congr rfl
  intro k _
  rw [Matrix.smul_apply, Matrix.add_apply, smul_eq_mul]
  ring

/-- three points on `[-1, 1]` -/
example (g : ℕ → Matrix (Fin 1) (Fin 1) ℂ) : ∃ R, zeroT (-1) 1 3 g = .ok R ∧
    ∀ i j, R i j = ∫ x in (-1 : ℝ)..0, interpolate (-1) 1 3 (fun k => spectral (g k) i j) x :=
  C109_on_mesh (-1) 1 3 g (by norm_num) (by norm_num) (by norm_num) 1 (by norm_num) (by norm_num)

/-- **C109, partial interval.** When zero lies inside of an interval, at the fraction `a` of it, the two weights of that interval are
exchanged: the result differs from the integral by `a (1 - a)` times the change of the spectral function over the interval. -/
theorem C109_partial_interval (wmin wmax : ℝ) (N : ℕ) (g : ℕ → Matrix (Fin d) (Fin d) ℂ) (hN : 2 ≤ N) (hw : wmin < 0) (n : ℕ) (hn : n + 1 < N) (a : ℝ) (ha0 : 0 ≤ a) (ha1 : a < 1)
    (hlt : wmin < wmax) (h0 : wmin + (n + a) * ((wmax - wmin) / (N - 1)) = 0) (hthr : 1e-9 < a * ((wmax - wmin) / (N - 1))) :
    ∃ R, zeroT wmin wmax N g = .ok R ∧ ∀ i j, R i j = (∫ x in wmin..0, interpolate wmin wmax N (fun k => spectral (g k) i j) x) +
      ((wmax - wmin) / (N - 1) : ℝ) * (a * (1 - a)) * (spectral (g (n + 1)) i j - spectral (g n) i j) := by
  have hN' : (2 : ℝ) ≤ N := by exact_mod_cast hN
  have hdw : delta wmin wmax N = (wmax - wmin) / ((N : ℝ) - 1) := by rw [delta, if_neg (by omega)]
  have hdw0 : 0 < delta wmin wmax N := by rw [hdw]; exact div_pos (by linarith) (by linarith)
  rw [← hdw] at h0 hthr ⊢
  have hq : -wmin / delta wmin wmax N = n + a := by rw [div_eq_iff hdw0.ne']; linarith
  have hfl : ⌊-wmin / delta wmin wmax N⌋₊ = n := by
    rw [hq, Nat.floor_eq_iff (by positivity)]
    constructor <;> linarith
  have ha : a = (-wmin - n * delta wmin wmax N) / delta wmin wmax N := by rw [eq_div_iff hdw0.ne']; linarith
  refine ⟨_, (zeroT_eq wmin wmax N g hw hN hlt n hfl a ha).2 hn (by rw [abs_of_nonneg (by positivity)]; exact hthr), fun i j => ?_⟩
  obtain ⟨i1, e1⟩ := integral_total wmin wmax N hN hlt (fun k => spectral (g k) i j) n (by omega)
  obtain ⟨i2, e2⟩ := integral_interval wmin wmax N hN hlt (fun k => spectral (g k) i j) n hn a ha0 ha1.le
  have := intervalIntegral.integral_add_adjacent_intervals i1 i2
  rw [e1, e2, h0] at this
  rw [← this]
  simp only [Matrix.smul_apply, Matrix.add_apply, Matrix.sum_apply, smul_eq_mul]
  have : ∑ k ∈ Finset.range n, (0.5 : ℂ) * (spectral (g k) i j + spectral (g (k + 1)) i j) = ∑ k ∈ Finset.range n, (spectral (g k) i j + spectral (g (k + 1)) i j) / 2 :=
    Finset.sum_congr rfl fun k _ => by ring
  rw [this]
  ring

/-- **C109 fails off the mesh**: a spectral function that grows linearly from 0 at -1 to 1 at 1 has the density 1/4, and 3/4 is returned. -/
theorem C109_off_mesh : ∃ (g : ℕ → Matrix (Fin 1) (Fin 1) ℂ) (R : Matrix (Fin 1) (Fin 1) ℂ), spectral (g 0) 0 0 = 0 ∧ spectral (g 1) 0 0 = 1 ∧ zeroT (-1) 1 2 g = .ok R ∧
    R 0 0 = 3 / 4 ∧ ∫ x in (-1 : ℝ)..0, interpolate (-1) 1 2 (fun k => spectral (g k) 0 0) x = 1 / 4 := by
  have hpi : (Real.pi : ℂ) ≠ 0 := by exact_mod_cast Real.pi_ne_zero
  set g : ℕ → Matrix (Fin 1) (Fin 1) ℂ := fun k => Matrix.of fun _ _ => -(k : ℂ) * Real.pi * I with hg
  have hs : ∀ k, spectral (g k) 0 0 = k := by
    intro k
    simp only [hg, spectral, Matrix.smul_apply, Matrix.sub_apply, Matrix.conjTranspose_apply, Matrix.of_apply, smul_eq_mul]
    have : star (-(k : ℂ) * Real.pi * I) = k * Real.pi * I := by
      simp [conj_ofReal]
    rw [this]
    field_simp
    linear_combination (-2 * k : ℂ) * I_sq
  obtain ⟨R, h1, h2⟩ := C109_partial_interval (-1) 1 2 g le_rfl (by norm_num) 0 (by norm_num) (1 / 2) (by norm_num) (by norm_num) (by norm_num) (by norm_num) (by norm_num)
  have hint : ∫ x in (-1 : ℝ)..0, interpolate (-1) 1 2 (fun k => spectral (g k) 0 0) x = 1 / 4 := by
    have := (integral_interval (-1) 1 2 le_rfl (by norm_num) (fun k => spectral (g k) 0 0) 0 (by norm_num) (1 / 2) (by norm_num) (by norm_num)).2
    have hd : delta (-1) 1 2 = 2 := by norm_num [delta]
    rw [hd] at this
    norm_num [hs] at this
    simp only [hs]
    exact this
  refine ⟨g, R, by rw [hs]; simp, by rw [hs]; simp, h1, ?_, hint⟩
  rw [h2 0 0, hint, hs, hs]
  push_cast
  norm_num

/-- **C109, zero outside of the mesh.** A mesh that ends below zero is read past its end. -/
theorem C109_outside (wmin wmax : ℝ) (N : ℕ) (g : ℕ → Matrix (Fin d) (Fin d) ℂ) (hN : 2 ≤ N) (hlt : wmin < wmax) (hw : wmax < -1e-9) : zeroT wmin wmax N g = .undef := by
  have hN' : (2 : ℝ) ≤ N := by exact_mod_cast hN
  have hdw : delta wmin wmax N = (wmax - wmin) / ((N : ℝ) - 1) := by rw [delta, if_neg (by omega)]
  have hdw0 : 0 < delta wmin wmax N := by rw [hdw]; exact div_pos (by linarith) (by linarith)
  have hw0 : wmin < 0 := by have : (0 : ℝ) < 1e-9 := by norm_num
                            linarith
  have hlen : (N - 1) * delta wmin wmax N = wmax - wmin := by rw [hdw]; field_simp [(by linarith : (N : ℝ) - 1 ≠ 0)]
  have hge : N - 1 ≤ ⌊-wmin / delta wmin wmax N⌋₊ := by
    apply Nat.le_floor
    rw [le_div_iff₀ hdw0, Nat.cast_sub (by omega), Nat.cast_one, hlen]
    have : (0 : ℝ) < 1e-9 := by norm_num
    linarith
  unfold zeroT
  simp only
  rw [if_neg (by rintro (h | h | h); exacts [h hw0, by omega, hdw0.ne' h])]
  by_cases h : N < ⌊-wmin / delta wmin wmax N⌋₊ + 1
  · rw [if_pos h]
  · have he : ⌊-wmin / delta wmin wmax N⌋₊ = N - 1 := by omega
    rw [if_neg h, he, if_pos, if_pos (by omega)]
    rw [show ((N - 1 + 1 : ℕ) : ℝ) = N by rw [show N - 1 + 1 = N by omega], hlen, abs_of_pos (by have : (0 : ℝ) < 1e-9 := by norm_num
                                                                                                 linarith)]
    linarith

/-- a mesh on the negative axis -/
example (g : ℕ → Matrix (Fin 1) (Fin 1) ℂ) : zeroT (-2) (-1) 5 g = .undef := C109_outside (-2) (-1) 5 g (by norm_num) (by norm_num) (by norm_num)

open scoped ComplexOrder in
theorem sum_posSemidef (S : ℕ → Matrix (Fin d) (Fin d) ℂ) (hS : ∀ k, (S k).PosSemidef) (n : ℕ) (c : ℕ → ℝ) (hc : ∀ k, 0 ≤ c k) :
    (∑ k ∈ Finset.range n, (c k : ℂ) • S k).PosSemidef :=
  Matrix.posSemidef_sum _ fun k _ => (hS k).smul (by exact_mod_cast hc k)

theorem scaled_hermitian (x : ℝ) (g : Matrix (Fin d) (Fin d) ℂ) : ((x : ℂ) • spectral g).IsHermitian := by
  unfold Matrix.IsHermitian
  rw [Matrix.conjTranspose_smul, (spectral_hermitian g).eq, show star (x : ℂ) = x from conj_ofReal x]

open scoped ComplexOrder in
/-- **C109, positivity.** Every result is hermitian; it is positive semidefinite when the spectral function is. -/
theorem C109_positive (wmin wmax : ℝ) (N : ℕ) (g : ℕ → Matrix (Fin d) (Fin d) ℂ) (R : Matrix (Fin d) (Fin d) ℂ) (h : zeroT wmin wmax N g = .ok R) :
    R.IsHermitian ∧ (wmin < wmax → (∀ k, (spectral (g k)).PosSemidef) → R.PosSemidef) := by
  have h05 : (0.5 : ℂ) = ((0.5 : ℝ) : ℂ) := by norm_num
  unfold zeroT at h
  simp only at h
  set n := ⌊-wmin / delta wmin wmax N⌋₊ with hn
  have hsum : spectral ((List.range' 1 n).foldl (fun r k => r + g k) ((0.5 : ℂ) • g 0)) =
      ∑ k ∈ Finset.range n, (0.5 : ℂ) • (spectral (g k) + spectral (g (k + 1))) + (0.5 : ℂ) • spectral (g n) := by
    rw [spectral_foldl, h05, spectral_smul, ← h05, ← range_sum (fun k => spectral (g k)) n, sub_add_cancel]
  have hfull : (∀ k, (spectral (g k)).PosSemidef) → (∑ k ∈ Finset.range n, (0.5 : ℂ) • (spectral (g k) + spectral (g (k + 1)))).PosSemidef := fun hS =>
    Matrix.posSemidef_sum _ fun k _ => ((hS k).add (hS (k + 1))).smul (by rw [h05]; exact_mod_cast (by norm_num : (0 : ℝ) ≤ 0.5))
  split_ifs at h with h1 h2 h3 h4
  · rw [Out.ok.injEq] at h
    rw [← h, finish_eq]
    refine ⟨scaled_hermitian _ _, fun hlt hS => ?_⟩
    push Not at h1
    have hN : 2 ≤ N := by
      rcases Nat.lt_or_ge N 2 with h | h
      · have : N = 1 := by omega
        exact absurd (by rw [delta, if_pos this]) h1.2.2
      · exact h
    have hN' : (2 : ℝ) ≤ N := by exact_mod_cast hN
    have hdw0 : 0 < delta wmin wmax N := by rw [delta, if_neg (by omega)]; exact div_pos (by linarith) (by linarith)
    have hfl := Nat.floor_le (show 0 ≤ -wmin / delta wmin wmax N from div_nonneg (by linarith [h1.1]) hdw0.le)
    have hfl2 := Nat.lt_floor_add_one (-wmin / delta wmin wmax N)
    rw [← hn, le_div_iff₀ hdw0] at hfl
    rw [← hn, div_lt_iff₀ hdw0] at hfl2
    set a : ℝ := (-wmin - (((n + 1 : ℕ) : ℝ) - 1) * delta wmin wmax N) / delta wmin wmax N with ha
    have ha0 : 0 ≤ a := by
      rw [ha]
      apply div_nonneg _ hdw0.le
      push_cast
      linarith
    have ha1 : a ≤ 1 := by
      rw [ha, div_le_one hdw0]
      push_cast
      linarith
    refine Matrix.PosSemidef.smul ?_ (by exact_mod_cast hdw0.le)
    rw [Nat.add_sub_cancel, spectral_add, hsum, h05, spectral_smul, ← h05, spectral_add]
    have e1 : ((a : ℂ) * a - 1) = ((a * a - 1 : ℝ) : ℂ) := by push_cast; ring
    have e2 : ((a : ℂ) * (2 - a)) = ((a * (2 - a) : ℝ) : ℂ) := by push_cast; ring
    rw [e1, e2, spectral_smul, spectral_smul]
    have e3 : ∀ X A B : Matrix (Fin d) (Fin d) ℂ, X + (0.5 : ℂ) • A + (0.5 : ℂ) • (((a * a - 1 : ℝ) : ℂ) • A + ((a * (2 - a) : ℝ) : ℂ) • B) =
        X + (((a * a / 2 : ℝ) : ℂ) • A + ((a * (2 - a) / 2 : ℝ) : ℂ) • B) := by
      intro X A B
      rw [add_assoc]
      congr 1
      rw [smul_add, smul_smul, smul_smul, ← add_assoc, ← add_smul]
      congr 2
      · push_cast; ring
      · push_cast; ring
    rw [e3]
    exact (hfull hS).add (((hS n).smul (by exact_mod_cast (by positivity : 0 ≤ a * a / 2))).add ((hS (n + 1)).smul (by
      exact_mod_cast (by have := mul_nonneg ha0 (by linarith : 0 ≤ 2 - a); linarith : 0 ≤ a * (2 - a) / 2))))
  · rw [Out.ok.injEq] at h
    rw [← h, finish_eq]
    refine ⟨scaled_hermitian _ _, fun hlt hS => ?_⟩
    push Not at h1
    have hdw0 : 0 ≤ delta wmin wmax N := by
      unfold delta
      split_ifs with h5
      · exact le_rfl
      · apply div_nonneg (by linarith)
        have : (1 : ℝ) ≤ N := by exact_mod_cast (Nat.one_le_iff_ne_zero.mpr h1.2.1)
        linarith
    refine Matrix.PosSemidef.smul ?_ (by exact_mod_cast hdw0)
    rw [Nat.add_sub_cancel, spectral_sub, hsum, h05, spectral_smul, ← h05, add_sub_cancel_right]
    exact hfull hS

/-- **C110.** The finite-temperature density is the sum over the mesh of the spectral function times the Fermi function. -/
theorem C110_sum (beta wmin wmax : ℝ) (hb : 0 < beta) (N : ℕ) (g : ℕ → Matrix (Fin d) (Fin d) ℂ) :
    finiteT beta wmin wmax N g = .ok (∑ k ∈ Finset.range N, ((delta wmin wmax N * occupation .fermion beta (value wmin wmax N k) : ℝ) : ℂ) • spectral (g k)) := by
  unfold finiteT
  rw [if_neg (not_not_intro hb), finish_eq]
  congr 1
  have : spectral ((List.range N).foldl (fun r k => r + ((1 + Real.exp (beta * value wmin wmax N k) : ℝ) : ℂ)⁻¹ • g k) 0) =
      ∑ k ∈ Finset.range N, ((occupation .fermion beta (value wmin wmax N k) : ℝ) : ℂ) • spectral (g k) := by
    rw [spectral_foldl (fun k => ((1 + Real.exp (beta * value wmin wmax N k) : ℝ) : ℂ)⁻¹ • g k), spectral_zero, zero_add]
    change ∑ k ∈ Finset.range N, _ = _
    apply Finset.sum_congr rfl
    intro k _
    rw [← ofReal_inv, spectral_smul]
    congr 2
    rw [occupation, if_pos rfl, one_div, add_comm]
  rw [this, Finset.smul_sum]
  apply Finset.sum_congr rfl
  intro k _
  rw [smul_smul]
  push_cast
  rfl

/-- one point has a vanishing step and gives no electrons -/
example (g : ℕ → Matrix (Fin 1) (Fin 1) ℂ) : finiteT 1 (-1) 1 1 g = .ok 0 := by
  rw [C110_sum 1 (-1) 1 one_pos]
  simp [delta]

open scoped ComplexOrder in
/-- **C110, bounds.** For a positive semidefinite spectral function the density lies between zero and the total weight on the mesh. -/
theorem C110_bounds (beta wmin wmax : ℝ) (hb : 0 < beta) (hlt : wmin ≤ wmax) (N : ℕ) (hN : 0 < N) (g : ℕ → Matrix (Fin d) (Fin d) ℂ) (hS : ∀ k, (spectral (g k)).PosSemidef) :
    ∃ R, finiteT beta wmin wmax N g = .ok R ∧ R.PosSemidef ∧ ((delta wmin wmax N : ℂ) • ∑ k ∈ Finset.range N, spectral (g k) - R).PosSemidef := by
  have hdw0 : 0 ≤ delta wmin wmax N := by
    unfold delta
    split_ifs with h5
    · exact le_rfl
    · apply div_nonneg (by linarith)
      have : (1 : ℝ) ≤ N := by exact_mod_cast hN
      linarith
  have hocc : ∀ x, 0 ≤ occupation .fermion beta x ∧ occupation .fermion beta x ≤ 1 := by
    intro x
    have := Real.exp_pos (beta * x)
    rw [occupation, if_pos rfl]
    exact ⟨by positivity, by rw [div_le_one (by positivity)]; linarith⟩
  refine ⟨_, C110_sum beta wmin wmax hb N g, ?_, ?_⟩
  · exact sum_posSemidef _ hS N _ fun k => mul_nonneg hdw0 (hocc _).1
  · have : (delta wmin wmax N : ℂ) • ∑ k ∈ Finset.range N, spectral (g k) -
        ∑ k ∈ Finset.range N, ((delta wmin wmax N * occupation .fermion beta (value wmin wmax N k) : ℝ) : ℂ) • spectral (g k) =
        ∑ k ∈ Finset.range N, ((delta wmin wmax N * (1 - occupation .fermion beta (value wmin wmax N k)) : ℝ) : ℂ) • spectral (g k) := by
      rw [Finset.smul_sum, ← Finset.sum_sub_distrib]
      apply Finset.sum_congr rfl
      intro k _
      rw [← sub_smul]
      congr 1
      push_cast
      ring
    rw [this]
    exact sum_posSemidef _ hS N _ fun k => mul_nonneg hdw0 (by linarith [(hocc (value wmin wmax N k)).2])

/-- **C110, zero temperature.** At low temperature the density tends to the sum of the spectral function over the negative frequencies and
half of its value at zero. -/
theorem C110_zero_temperature (wmin wmax : ℝ) (N : ℕ) (g : ℕ → Matrix (Fin d) (Fin d) ℂ) (i j : Fin d) :
    ∃ R : ℝ → Matrix (Fin d) (Fin d) ℂ, (∀ beta, 0 < beta → finiteT beta wmin wmax N g = .ok (R beta)) ∧
      Tendsto (fun beta => R beta i j) atTop (𝓝 (∑ k ∈ Finset.range N, ((delta wmin wmax N *
        (if value wmin wmax N k < 0 then 1 else if value wmin wmax N k = 0 then 1 / 2 else 0) : ℝ) : ℂ) * spectral (g k) i j)) := by
  refine ⟨_, fun beta hb => C110_sum beta wmin wmax hb N g, ?_⟩
  simp only [Matrix.sum_apply, Matrix.smul_apply, smul_eq_mul]
  apply tendsto_finset_sum
  intro k _
  apply Tendsto.mul_const
  apply (Complex.continuous_ofReal.tendsto _).comp
  apply Tendsto.const_mul
  simp only [occupation, if_true]
  set x := value wmin wmax N k
  rcases lt_trichotomy x 0 with h | h | h
  · rw [if_pos h]
    have h1 : Tendsto (fun beta : ℝ => Real.exp (beta * x)) atTop (𝓝 0) := Real.tendsto_exp_atBot.comp (tendsto_id.atTop_mul_const_of_neg h)
    have h2 : Tendsto (fun beta : ℝ => 1 / (Real.exp (beta * x) + 1)) atTop (𝓝 (1 / (0 + 1))) := tendsto_const_nhds.div (h1.add_const 1) (by norm_num)
    simpa using h2
  · rw [if_neg (by rw [h]; exact lt_irrefl 0), if_pos h, h]
    simp only [mul_zero, Real.exp_zero]
    have : (1 : ℝ) / (1 + 1) = 1 / 2 := by norm_num
    rw [this]
    exact tendsto_const_nhds
  · rw [if_neg (not_lt.mpr h.le), if_neg h.ne']
    have h1 : Tendsto (fun beta : ℝ => Real.exp (beta * x) + 1) atTop atTop :=
      tendsto_atTop_add_const_right _ _ (Real.tendsto_exp_atTop.comp (tendsto_id.atTop_mul_const h))
    have h2 : Tendsto (fun beta : ℝ => (Real.exp (beta * x) + 1)⁻¹) atTop (𝓝 0) := h1.inv_tendsto_atTop
    simpa [one_div] using h2

/-! ### C111: Legendre coefficients -/

theorem P_at_one (l : ℕ) : (Legendre.P ℝ l).eval 1 = 1 := by
  have h := Legendre.P_deriv_eval (K := ℝ) l 0 (Nat.zero_le _) 1 (by norm_num)
  simp only [Function.iterate_zero, id, Nat.sub_zero, Nat.add_zero, one_pow, one_mul, pow_zero, Nat.factorial_zero, Nat.cast_one] at h
  rw [h, div_self]
  exact_mod_cast Nat.factorial_ne_zero l

/-- **C111.** The element `(i, j)` of the density from Legendre coefficients is `-G_ji(beta)` of the function the coefficients stand for. -/
theorem C111_minus_G_beta (beta : ℝ) (hb : beta ≠ 0) (n : ℕ) (gl : ℕ → Matrix (Fin d) (Fin d) ℂ) (i j : Fin d) :
    legendre beta n gl i j = -Legendre.evaluate beta n (fun l => gl l j i) beta := by
  have h1 : Legendre.evaluate beta n (fun l => gl l j i) beta = ∑ l ∈ Finset.range n, gl l j i * (Real.sqrt (2 * l + 1) : ℂ) / (beta : ℂ) := by
    rw [Legendre.evaluate, Legendre.C58_generator, Legendre.sum_mapIdx]
    apply Finset.sum_congr rfl
    intro l _
    rw [show 2 * beta / beta - 1 = 1 by field_simp; norm_num, P_at_one]
    simp
  have h2 : ∀ n, ((List.range n).foldl (fun r (l : ℕ) => r - (Real.sqrt (2 * l + 1) : ℂ) • gl l) (0 : Matrix (Fin d) (Fin d) ℂ)) j i =
      -∑ l ∈ Finset.range n, (Real.sqrt (2 * l + 1) : ℂ) * gl l j i := by
    intro n
    induction n with
    | zero => simp
    | succ n ih =>
      rw [List.range_succ, List.foldl_append, Finset.sum_range_succ]
      simp only [List.foldl_cons, List.foldl_nil, Matrix.sub_apply, Matrix.smul_apply, smul_eq_mul]
      rw [ih]
      ring
  rw [legendre, Matrix.transpose_apply, Matrix.smul_apply, h2, h1, smul_eq_mul, mul_neg, Finset.mul_sum]
  congr 1
  apply Finset.sum_congr rfl
  intro l _
  ring

/-- one coefficient -/
example : legendre 2 1 (fun _ => !![1, 2; 3, 4]) 0 1 = -3 / 2 := by
  rw [C111_minus_G_beta 2 (by norm_num)]
  rw [Legendre.evaluate, Legendre.C58_generator, Legendre.sum_mapIdx]
  simp [Legendre.P_zero]
  norm_num

/-- **C111, convention.** The two densities of one function are transposed to each other: the density from Matsubara frequencies is
`<c^dagger_j c_i>` and that from Legendre coefficients is `<c^dagger_i c_j>`. Here for the Legendre coefficient of a hermitian matrix and
its transformation to Matsubara frequencies. -/
theorem C111_transposed (fit : List Arr → List Arr × ℝ) (J : ℝ → ℝ → ℝ) (hJ : LegMat.PoissonJ J) (beta : ℝ) (hb : 0 < beta) (nIw : ℤ) :
    ∃ (gl : ℕ → Matrix (Fin 2) (Fin 2) ℂ) (r : ℕ → ℕ → Option ℂ),
      matsubara fit (Mesh.mk' beta .fermion nIw false) 2 2
        (fun n i j => if h : i < 2 ∧ j < 2 then LegMat.directFreq J 1 (fun l => gl l ⟨i, h.1⟩ ⟨j, h.2⟩) n else 0)
        [fun _ _ => 0, fun i j => if i = 0 ∧ j = 1 then I else if i = 1 ∧ j = 0 then -I else 1, fun _ _ => 0, fun _ _ => 0] = .ok r ∧
      r 0 1 = some (I / 2) ∧ legendre beta 1 gl 0 1 = -(I / 2) ∧ legendre beta 1 gl 1 0 = I / 2 := by
  have hbc : (beta : ℂ) ≠ 0 := by exact_mod_cast hb.ne'
  set gl : ℕ → Matrix (Fin 2) (Fin 2) ℂ := fun _ => (-(beta / 2) : ℂ) • !![1, I; -I, 1] with hgl
  have hev : ∀ a : ℂ, ∀ t : ℝ, Legendre.evaluate beta 1 (fun _ => (-(beta / 2) : ℂ) * a) t = Fourier.oneFermion a 0 t beta := by
    intro a t
    rw [Legendre.evaluate, Legendre.C58_generator, Legendre.sum_mapIdx, Fourier.oneFermion]
    simp [Legendre.P_zero]
    field_simp
    norm_num
    ring
  have hfreq : ∀ (a : ℂ) (n : ℤ), LegMat.directFreq J 1 (fun _ => (-(beta / 2) : ℂ) * a) n = a / iw (Mesh.mk' beta .fermion nIw false) n := by
    intro a n
    rw [LegMat.C96_direct_frequency J hJ (Mesh.mk' beta .fermion nIw false) rfl hb]
    have := Fourier.C54_fermion_pole (Mesh.mk' beta .fermion nIw false) rfl hb a 0 n
    rw [ofReal_zero, sub_zero] at this
    rw [← this]
    congr 1
    funext t
    exact hev a t
  obtain ⟨r, h1, h2, -⟩ := C107_upper fit beta .fermion nIw 2
    (fun n i j => if h : i < 2 ∧ j < 2 then LegMat.directFreq J 1 (fun l => gl l ⟨i, h.1⟩ ⟨j, h.2⟩) n else 0)
    [fun _ _ => 0, fun i j => if i = 0 ∧ j = 1 then I else if i = 1 ∧ j = 0 then -I else 1, fun _ _ => 0, fun _ _ => 0] (by simp) (by intro i _ j _; simp; norm_num)
  refine ⟨gl, r, h1, ?_, ?_, ?_⟩
  · rw [h2 0 1 (by norm_num) (by norm_num)]
    have e : ∀ n, (if h : 0 < 2 ∧ 1 < 2 then LegMat.directFreq J 1 (fun l => gl l ⟨0, h.1⟩ ⟨1, h.2⟩) n else 0) = I / iw (Mesh.mk' beta .fermion nIw false) n := by
      intro n
      rw [dif_pos (by norm_num), ← hfreq I n]
      rfl
    simp only [e]
    congr 1
    simp only [List.getD_cons_succ, List.getD_cons_zero, and_self, if_true]
    unfold Fourier.density
    simp [polesDensity, Poles.freq, Mesh.mk']
    ring
  · rw [C111_minus_G_beta beta hb.ne', show (fun l => gl l 1 0) = fun _ => (-(beta / 2) : ℂ) * -I from rfl, hev, Fourier.oneFermion]
    simp
    norm_num
    ring
  · rw [C111_minus_G_beta beta hb.ne', show (fun l => gl l 0 1) = fun _ => (-(beta / 2) : ℂ) * I from rfl, hev, Fourier.oneFermion]
    simp
    norm_num
    ring

end Verif.Density
