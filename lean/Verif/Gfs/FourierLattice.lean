import Verif.Gfs.Dft
import Verif.Mesh.Lattice
import Verif.Lattice.Bravais

/-!
# Property C52: Fourier transforms between the Brillouin zone and the cyclic lattice

Source: `/repo/c++/triqs/gfs/transform/fourier_lattice.cpp`, `/repo/c++/triqs/gfs/transform/fourier_common.cpp`.

Simplifications: exact complex numbers; one component of the target. FFTW is trusted to compute the
sums of its documentation for a rank-3 transform on row-major data. The data of a function on a mesh
is a function of the data index.
-/

namespace Verif.FourierLattice
open Complex Verif.Fourier

/-! ## Model -/

/-- row-major position of `(i, j, k)` in an array with second and third extents `b`, `c` (FFTW) -/
def flat (b c i j k : ℕ) : ℕ := (i * b + j) * c + k

/-- rank-3 `_fourier_base`, fourier_common.cpp:27-46, with extents `a × b × c`; `sign = 1`:
`FFTW_BACKWARD`, `sign = -1`: `FFTW_FORWARD`. -/
noncomputable def dft3 (s : ℤ) (a b c : ℕ) (f : ℕ → ℂ) (d : ℕ) : ℂ :=
  ∑ i ∈ Finset.range a, ∑ j ∈ Finset.range b, ∑ k ∈ Finset.range c,
    f (flat b c i j k) * (phase a (s * (i * (d / (b * c) : ℕ))) * phase b (s * (j * (d / c % b : ℕ))) * phase c (s * (k * (d % c : ℕ))))

/-- `__impl`, fourier_lattice.cpp:30-50. The extents given to FFTW are those of the input; the output
array has the size of the output mesh, which is not compared: `none` when FFTW writes beyond its end.
The elements that are not written keep their initial value zero. -/
noncomputable def impl (s : ℤ) (out : ℕ × ℕ × ℕ) (a b c : ℕ) (f : ℕ → ℂ) : Option (ℕ → ℂ) :=
  if out.1 * out.2.1 * out.2.2 < a * b * c then none
  else some (fun d => if d < a * b * c then dft3 s a b c f d else 0)

/-- brzone → cyclat, fourier_lattice.cpp:54-58 -/
noncomputable def kToR (out : ℕ × ℕ × ℕ) (a b c : ℕ) (gk : ℕ → ℂ) : Option (ℕ → ℂ) :=
  (impl (-1) out a b c gk).map (fun g d => g d / (a * b * c : ℕ))

/-- cyclat → brzone, fourier_lattice.cpp:62 -/
noncomputable def rToK (out : ℕ × ℕ × ℕ) (a b c : ℕ) (gr : ℕ → ℂ) : Option (ℕ → ℂ) := impl 1 out a b c gr

/-! ## Proofs -/

/-- three-dimensional transform as iterated transforms -/
noncomputable def D3 (s : ℤ) (a b c : ℕ) (F : ℕ → ℕ → ℕ → ℂ) (x y z : ℕ) : ℂ :=
  dft s a (fun i => dft s b (fun j => dft s c (fun k => F i j k) z) y) x

theorem dft_comm (s t : ℤ) (a b : ℕ) (F : ℕ → ℕ → ℂ) (x y : ℕ) :
    dft s a (fun i => dft t b (fun j => F i j) y) x = dft t b (fun j => dft s a (fun i => F i j) x) y := by
  unfold dft
  simp only [Finset.sum_mul]
  rw [Finset.sum_comm]
  refine Finset.sum_congr rfl fun j _ => Finset.sum_congr rfl fun i _ => ?_
  ring

theorem D3_inverse (s : ℤ) (hs : s = 1 ∨ s = -1) (a b c : ℕ) (F : ℕ → ℕ → ℕ → ℂ) {x y z : ℕ} (hx : x < a) (hy : y < b) (hz : z < c) :
    D3 s a b c (D3 (-s) a b c F) x y z = a * b * c * F x y z := by
  unfold D3
  have h1 : ∀ i j, dft s c (fun k => dft (-s) a (fun i' => dft (-s) b (fun j' => dft (-s) c (fun k' => F i' j' k') k) j) i) z
      = dft (-s) a (fun i' => dft (-s) b (fun j' => c * F i' j' z) j) i := by
    intro i j
    rw [dft_comm]
    apply dft_congr
    intro i' _
    rw [dft_comm]
    apply dft_congr
    intro j' _
    exact dft_inverse s hs _ hz
  simp only [h1]
  have h2 : ∀ i, dft s b (fun j => dft (-s) a (fun i' => dft (-s) b (fun j' => c * F i' j' z) j) i) y
      = dft (-s) a (fun i' => b * (c * F i' y z)) i := by
    intro i
    rw [dft_comm]
    apply dft_congr
    intro i' _
    exact dft_inverse s hs _ hy
  simp only [h2]
  rw [dft_inverse s hs _ hx]
  ring

theorem flat_lt {a b c i j k : ℕ} (hi : i < a) (hj : j < b) (hk : k < c) : flat b c i j k < a * b * c := by
  unfold flat
  have h1 : i * b + j < a * b := by
    calc i * b + j < i * b + b := by omega
      _ = (i + 1) * b := by ring
      _ ≤ a * b := Nat.mul_le_mul_right b hi
  calc (i * b + j) * c + k < (i * b + j) * c + c := by omega
    _ = (i * b + j + 1) * c := by ring
    _ ≤ a * b * c := Nat.mul_le_mul_right c h1

theorem flat_decode {b c i j k : ℕ} (hj : j < b) (hk : k < c) :
    flat b c i j k / (b * c) = i ∧ flat b c i j k / c % b = j ∧ flat b c i j k % c = k := by
  have hc : 0 < c := by omega
  have hb : 0 < b := by omega
  have h1 : flat b c i j k / c = i * b + j := by
    unfold flat
    rw [Nat.mul_comm, Nat.mul_add_div hc, Nat.div_eq_of_lt hk, Nat.add_zero]
  refine ⟨?_, ?_, ?_⟩
  · rw [Nat.mul_comm b c, ← Nat.div_div_eq_div_mul, h1, Nat.mul_comm, Nat.mul_add_div hb, Nat.div_eq_of_lt hj, Nat.add_zero]
  · rw [h1, Nat.mul_comm, Nat.mul_add_mod, Nat.mod_eq_of_lt hj]
  · unfold flat
    rw [Nat.mul_comm, Nat.mul_add_mod, Nat.mod_eq_of_lt hk]

theorem flat_encode {a b c d : ℕ} (hd : d < a * b * c) :
    ∃ i j k, i < a ∧ j < b ∧ k < c ∧ flat b c i j k = d := by
  have hc : 0 < c := Nat.pos_of_ne_zero (by rintro rfl; simp at hd)
  have hb : 0 < b := Nat.pos_of_ne_zero (by rintro rfl; simp at hd)
  refine ⟨d / c / b, d / c % b, d % c, ?_, Nat.mod_lt _ hb, Nat.mod_lt _ hc, ?_⟩
  · rw [Nat.div_lt_iff_lt_mul hb, Nat.div_lt_iff_lt_mul hc]
    exact hd
  · unfold flat
    rw [Nat.mul_comm (d / c / b) b, Nat.div_add_mod, Nat.mul_comm, Nat.div_add_mod]

theorem dft3_flat (s : ℤ) (a : ℕ) {b c : ℕ} (f : ℕ → ℂ) (x : ℕ) {y z : ℕ} (hy : y < b) (hz : z < c) :
    dft3 s a b c f (flat b c x y z) = D3 s a b c (fun i j k => f (flat b c i j k)) x y z := by
  unfold dft3 D3 dft
  obtain ⟨h1, h2, h3⟩ := flat_decode (i := x) hy hz
  rw [h1, h2, h3]
  simp only [Finset.sum_mul]
  refine Finset.sum_congr rfl fun i _ => Finset.sum_congr rfl fun j _ => Finset.sum_congr rfl fun k _ => ?_
  ring

theorem dft3_inverse (s : ℤ) (hs : s = 1 ∨ s = -1) {a b c : ℕ} (f g : ℕ → ℂ) (t : ℂ)
    (hg : ∀ d < a * b * c, g d = t * dft3 (-s) a b c f d) {d : ℕ} (hd : d < a * b * c) :
    dft3 s a b c g d = t * (a * b * c) * f d := by
  obtain ⟨x, y, z, hx, hy, hz, rfl⟩ := flat_encode hd
  rw [dft3_flat s a g x hy hz]
  have h : D3 s a b c (fun i j k => g (flat b c i j k)) x y z
      = t * D3 s a b c (D3 (-s) a b c (fun i j k => f (flat b c i j k))) x y z := by
    unfold D3
    rw [← dft_smul]
    apply dft_congr
    intro i hi
    rw [← dft_smul]
    apply dft_congr
    intro j hj
    rw [← dft_smul]
    apply dft_congr
    intro k hk
    beta_reduce
    rw [hg _ (flat_lt hi hj hk), dft3_flat _ _ _ _ hj hk]
    rfl
  rw [h, D3_inverse s hs _ _ _ _ hx hy hz]
  ring

/-- **C52.** Momentum → real space → momentum and real space → momentum → real space are the identity
on every element of the data, for all extents. -/
theorem C52_round_trips (a b c : ℕ) (g : ℕ → ℂ) :
    (∃ gr gk, kToR (a, b, c) a b c g = some gr ∧ rToK (a, b, c) a b c gr = some gk ∧ ∀ d < a * b * c, gk d = g d) ∧
    (∃ gk gr, rToK (a, b, c) a b c g = some gk ∧ kToR (a, b, c) a b c gk = some gr ∧ ∀ d < a * b * c, gr d = g d) := by
  unfold kToR rToK impl
  simp only [lt_irrefl, if_false, Option.map_some, Option.some.injEq, exists_and_left, exists_eq_left']
  constructor
  · intro d hd
    have hN : ((a * b * c : ℕ) : ℂ) ≠ 0 := by
      have : a * b * c ≠ 0 := by omega
      exact_mod_cast this
    rw [if_pos hd, dft3_inverse 1 (Or.inl rfl) g _ (1 / (a * b * c : ℕ)) ?_ hd]
    · push_cast at hN ⊢
      field_simp
      exact mul_div_cancel_left₀ _ hN
    · intro e he
      simp only [if_pos he]
      ring
  · intro d hd
    have hN : ((a * b * c : ℕ) : ℂ) ≠ 0 := by
      have : a * b * c ≠ 0 := by omega
      exact_mod_cast this
    rw [if_pos hd, dft3_inverse (-1) (Or.inr rfl) g _ 1 ?_ hd]
    · push_cast at hN ⊢
      field_simp
      exact mul_div_cancel_left₀ _ hN
    · intro e he
      simp only [if_pos he, neg_neg]
      ring

/-- the extents of the output mesh are not compared with those of the input: a smaller output mesh is
written beyond its end -/
theorem C52_smaller_output_undefined (s : ℤ) (g : ℕ → ℂ) : impl s (1, 1, 1) 2 1 1 g = none := by
  simp [impl]

/-! ### meaning of the sums -/

open Verif.Lattice3 in
/-- data index of a valid mesh index is the row-major position -/
theorem toDataIndex_flat {a b c i j k : ℕ} (hi : i < a) (hj : j < b) (hk : k < c) :
    Verif.Lattice.toDataIndex ![(a : ℤ), b, c] ![(i : ℤ), j, k] = some (flat b c i j k : ℤ) := by
  unfold Verif.Lattice.toDataIndex
  have hv : Verif.Lattice.valid ![(a : ℤ), b, c] ![(i : ℤ), j, k] = true := by
    rw [Verif.Lattice.valid_iff]
    intro l
    fin_cases l <;> simp <;> omega
  rw [if_pos hv]
  simp only [Verif.Lattice.stride0, Verif.Lattice.stride1, flat, Matrix.cons_val_zero, Matrix.cons_val_one, Matrix.cons_val]
  congr 1
  push_cast
  ring

open Verif.Lattice3 Matrix in
/-- **C52, meaning.** On a lattice accepted by the constructors, with one point in the directions beyond
its dimension, the value at the translation `R` is `1/N Σ_k g(k) exp(-i k·R)`, and the value at the
momentum `k` is `Σ_R g(R) exp(i k·R)`, where `k·R` is the dot product of the vectors of the two meshes. -/
theorem C52_meaning {nd : ℕ} {u : R3} {bl : Bravais} (h : Bravais.mk' nd u = some bl) {bz : BZ} (hbz : BZ.mk' bl = some bz)
    {a b c : ℕ} (hd1 : ∀ l : Fin 3, nd ≤ l.val → (![(a : ℤ), b, c] : Fin 3 → ℤ) l = 1) (g : ℕ → ℂ) {x y z : ℕ} (hx : x < a) (hy : y < b) (hz : z < c) :
    let k := fun i j l : ℕ => (BrMesh.mk' bz ![(a : ℤ), b, c]).toValue ![(i : ℤ), j, l]
    let R := fun i j l : ℕ => bl.point ![(i : ℤ), j, l]
    (∃ gr, kToR (a, b, c) a b c g = some gr ∧ gr (flat b c x y z) =
      (∑ i ∈ Finset.range a, ∑ j ∈ Finset.range b, ∑ l ∈ Finset.range c,
        g (flat b c i j l) * exp (-(I * ((k i j l ⬝ᵥ R x y z : ℝ) : ℂ)))) / (a * b * c : ℕ)) ∧
    (∃ gk, rToK (a, b, c) a b c g = some gk ∧ gk (flat b c x y z) =
      ∑ i ∈ Finset.range a, ∑ j ∈ Finset.range b, ∑ l ∈ Finset.range c,
        g (flat b c i j l) * exp (I * ((k x y z ⬝ᵥ R i j l : ℝ) : ℂ))) := by
  intro k R
  have ha0 : (a : ℂ) ≠ 0 := by have : a ≠ 0 := by omega
                               exact_mod_cast this
  have hb0 : (b : ℂ) ≠ 0 := by have : b ≠ 0 := by omega
                               exact_mod_cast this
  have hc0 : (c : ℂ) ≠ 0 := by have : c ≠ 0 := by omega
                               exact_mod_cast this
  have dot : ∀ i j l i' j' l' : ℕ, i < a → j < b → l < c →
      ((k i j l ⬝ᵥ R i' j' l' : ℝ) : ℂ) = 2 * Real.pi * (i * i' / a + j * j' / b + l * l' / c) := by
    intro i j l i' j' l' hi hj hl
    have := C64_duality_partial h hbz ![(a : ℤ), b, c] (by intro l; fin_cases l <;> simp <;> omega) hd1
      ![(i : ℤ), j, l] ![(i' : ℤ), j', l'] (by intro l; fin_cases l <;> simp <;> omega)
    simp only [k, R]
    rw [this, Fin.sum_univ_three]
    simp
  obtain ⟨e1, e2, e3⟩ := flat_decode (i := x) hy hz
  have hlt := flat_lt hx hy hz
  constructor
  · unfold kToR impl
    simp only [lt_irrefl, if_false, Option.map_some, Option.some.injEq, exists_eq_left', if_pos hlt]
    congr 1
    unfold dft3
    rw [e1, e2, e3]
    refine Finset.sum_congr rfl fun i hi => Finset.sum_congr rfl fun j hj => Finset.sum_congr rfl fun l hl => ?_
    congr 1
    rw [dot i j l x y z (Finset.mem_range.mp hi) (Finset.mem_range.mp hj) (Finset.mem_range.mp hl)]
    rw [phase_eq_exp, phase_eq_exp, phase_eq_exp, ← exp_add, ← exp_add]
    congr 1
    push_cast
    field_simp
    ring
  · unfold rToK impl
    simp only [lt_irrefl, if_false, Option.some.injEq, exists_eq_left', if_pos hlt]
    unfold dft3
    rw [e1, e2, e3]
    refine Finset.sum_congr rfl fun i hi => Finset.sum_congr rfl fun j hj => Finset.sum_congr rfl fun l hl => ?_
    congr 1
    rw [dot x y z i j l hx hy hz]
    rw [phase_eq_exp, phase_eq_exp, phase_eq_exp, ← exp_add, ← exp_add]
    congr 1
    push_cast
    field_simp

/-- example: two points in one direction: the sum and the difference of the two values -/
example (g : ℕ → ℂ) : ∃ gr, kToR (2, 1, 1) 2 1 1 g = some gr ∧ gr 0 = (g 0 + g 1) / 2 ∧ gr 1 = (g 0 - g 1) / 2 := by
  have h0 : ∀ L : ℕ, phase L 0 = 1 := phase_zero
  have h2 : phase 2 (-1) = -1 := by
    rw [phase_eq_exp]
    have : (2 * Real.pi * I * ((-1 : ℤ) : ℂ) / (2 : ℕ) : ℂ) = -(Real.pi * I) := by
      push_cast; ring
    rw [this, exp_neg, exp_pi_mul_I]
    norm_num
  refine ⟨_, rfl, ?_, ?_⟩ <;>
    simp [dft3, flat, Finset.sum_range_succ, h0, h2]
  ring

end Verif.FourierLattice
