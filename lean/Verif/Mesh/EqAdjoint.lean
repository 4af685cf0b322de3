import Verif.Mesh.Matsubara
import Verif.Mesh.Linear
import Verif.Mesh.Lattice

/-!
# Equality of meshes and adjoint meshes

Source: `/repo/c++/triqs/mesh/adjoint.hpp`, and `operator==` in `imfreq.hpp`, `bases/linear.hpp`,
`imtime.hpp`, `cyclat.hpp`, `brzone.hpp`, with `hash` in `utils.hpp`.
-/

namespace Verif.MeshEq

/-! ## Model: equality -/

/-- `imfreq::operator==`, imfreq.hpp:113. -/
noncomputable def imfreqEq (a b : Matsubara.Mesh) : Bool :=
  open Classical in decide (a.beta = b.beta) && decide (a.stat = b.stat) && decide (a.nIw = b.nIw) && decide (a.positiveOnly = b.positiveOnly)

/-- `linear::operator==` (defaulted), linear.hpp:61: all members. -/
def linearEq {K : Type} [DecidableEq K] (a b : Linear.Mesh K) : Bool :=
  decide (a.L = b.L) && decide (a.xmin = b.xmin) && decide (a.xmax = b.xmax) && decide (a.delta = b.delta) && decide (a.deltaInv = b.deltaInv)

/-- parameters of a lattice mesh: units (nine entries) and extents. -/
structure LatticeParams (K : Type) where
  units : Fin 3 → Fin 3 → K
  dims : Lattice.Idx

/-- `hash(sum(units), dims[0], dims[1], dims[2])`, cyclat.hpp:62, brzone.hpp:75, with `hash` of utils.hpp:45:
the 64-bit sum of the `std::hash` values. `hd` and `hl` are the standard hashes of `double` and `long`. -/
def latticeHash {K : Type} [Add K] [Zero K] (hd : K → BitVec 64) (hl : Int → BitVec 64) (p : LatticeParams K) : BitVec 64 :=
  hd ((List.finRange 3).foldl (fun s i => (List.finRange 3).foldl (fun s j => s + p.units i j) s) 0)
    + hl (p.dims 0) + hl (p.dims 1) + hl (p.dims 2)

/-- `cyclat::operator==`, cyclat.hpp:86, `brzone::operator==`, brzone.hpp:101. -/
def latticeEq {K : Type} [Add K] [Zero K] (hd : K → BitVec 64) (hl : Int → BitVec 64) (p q : LatticeParams K) : Bool :=
  latticeHash hd hl p == latticeHash hd hl q

/-! ## Proofs: equality -/

/-- **C50** (partial: Matsubara and linear meshes; for lattice meshes only one direction holds, see below).
Meshes compare equal exactly when constructed from the same parameters. -/
theorem C50_mesh_equality_partial :
    (∀ (b b' : ℝ) (s s' : Matsubara.Stat) (n n' : Int) (p p' : Bool),
      imfreqEq (Matsubara.Mesh.mk' b s n p) (Matsubara.Mesh.mk' b' s' n' p') = true ↔ (b, s, n, p) = (b', s', n', p')) ∧
    (∀ {K : Type} [Field K] [LinearOrder K] [IsStrictOrderedRing K] [FloorRing K] (a b a' b' : K) (n n' : Int) (m m' : Linear.Mesh K),
      Linear.mk' a b n = some m → Linear.mk' a' b' n' = some m' → (linearEq m m' = true ↔ (a, b, n) = (a', b', n'))) ∧
    (∀ {K : Type} [Add K] [Zero K] (hd : K → BitVec 64) (hl : Int → BitVec 64) (p : LatticeParams K), latticeEq hd hl p p = true) := by
  refine ⟨?_, ?_, ?_⟩
  · intro b b' s s' n n' p p'
    simp [imfreqEq, Matsubara.Mesh.mk', Prod.ext_iff, and_assoc]
  · intro K _ _ _ _ a b a' b' n n' m m' h h'
    unfold Linear.mk' at h h'
    simp only at h h'
    split at h
    · split at h'
      · simp only [Option.some.injEq] at h h'
        subst h; subst h'
        simp only [linearEq, Bool.and_eq_true, decide_eq_true_iff, Prod.mk.injEq]
        constructor
        · rintro ⟨⟨⟨⟨h1, h2⟩, h3⟩, _⟩, _⟩; exact ⟨h2, h3, h1⟩
        · rintro ⟨rfl, rfl, rfl⟩; simp
      · cases h'
    · cases h
  · intro K _ _ hd hl p; simp [latticeEq]

example : ∃ m m', Linear.mk' (0 : ℚ) 1 5 = some m ∧ Linear.mk' (0 : ℚ) 1 6 = some m' ∧ linearEq m m' = false :=
  ⟨_, _, rfl, rfl, by decide +kernel⟩

/-- **C50 fails** for lattice meshes, whatever the standard hash functions are: permuted extents, and
units with the same sum of entries, compare equal. -/
theorem C50_fails_for_lattice_meshes (hd : ℚ → BitVec 64) (hl : Int → BitVec 64) :
    (∃ p q : LatticeParams ℚ, p.units = q.units ∧ p.dims = ![2, 3, 1] ∧ q.dims = ![3, 2, 1] ∧ latticeEq hd hl p q = true) ∧
    (∃ p q : LatticeParams ℚ, p.dims = q.dims ∧ p.units ≠ q.units ∧ latticeEq hd hl p q = true) := by
  constructor
  · refine ⟨⟨![![1, 0, 0], ![0, 1, 0], ![0, 0, 1]], ![2, 3, 1]⟩, ⟨![![1, 0, 0], ![0, 1, 0], ![0, 0, 1]], ![3, 2, 1]⟩, rfl, rfl, rfl, ?_⟩
    unfold latticeEq latticeHash
    simp only [beq_iff_eq, Matrix.cons_val_zero, Matrix.cons_val_one, Matrix.cons_val]
    ac_rfl
  · refine ⟨⟨![![1, 0, 0], ![0, 1, 0], ![0, 0, 1]], ![2, 3, 1]⟩, ⟨![![1, 0, 0], ![0, 2, 0], ![0, 0, 0]], ![2, 3, 1]⟩, rfl, ?_, ?_⟩
    · intro h
      have := congrFun (congrFun h 1) 1
      revert this
      decide +kernel
    · unfold latticeEq latticeHash
      rw [beq_iff_eq]
      congr 3
      have : ∀ (a b : ℚ), a = b → hd a = hd b := fun _ _ h => by rw [h]
      apply this
      decide +kernel

/-! ## Model: adjoint meshes -/

/-- an `imtime` mesh: `beta`, statistic, number of points, imtime.hpp:41-42 and 55. -/
structure ImTime where
  beta : ℝ
  stat : Matsubara.Stat
  n : Int

/-- `make_adjoint_mesh(imtime)`, adjoint.hpp:31-34; default argument `-1`. -/
def adjImTime (m : ImTime) (nIw : Int := -1) : Matsubara.Mesh :=
  Matsubara.Mesh.mk' m.beta m.stat (if nIw = -1 then Int.tdiv (m.n - 1) 6 else nIw) false

/-- `make_adjoint_mesh(imfreq)`, adjoint.hpp:35-38. -/
def adjImFreq (m : Matsubara.Mesh) (nTau : Int := -1) : ImTime :=
  ⟨m.beta, m.stat, if nTau = -1 then 6 * (m.last + 1) + 1 else nTau⟩

/-- the size test of both transforms, fourier_matsubara.cpp:127-129 and 218-220: no exception. -/
def accepted (t : ImTime) (w : Matsubara.Mesh) : Bool := !(decide (t.n - 1 < 2 * (w.last + 1)))

/-- the warning of the direct transform, fourier_matsubara.cpp:131-133. -/
def warns (t : ImTime) (w : Matsubara.Mesh) : Bool := decide (t.n - 1 < 6 * (w.last + 1))

/-- `make_adjoint_mesh(retime)` and `(refreq)`, adjoint.hpp:43-54 (the same formula); `pi` is the constant
`M_PI`. Simplification: `int L = m.size()` does not narrow. `none` when the delta is zero or the
constructor fails. -/
def adjReal {K : Type} [Field K] [LinearOrder K] (pi : K) (m : Linear.Mesh K) (shift : Bool := false) : Option (Linear.Mesh K) :=
  let wmax := pi * ((m.L - 1 : Int) : K) / ((m.L : K) * m.delta)
  if shift then Linear.mk' (-wmax + pi / (m.L : K) / m.delta) (wmax + pi / (m.L : K) / m.delta) m.L
  else Linear.mk' (-wmax) wmax m.L

/-! ## Proofs: adjoint meshes -/

/-- **C51, Matsubara.** For every frequency mesh the adjoint time mesh is accepted by the transforms
without a warning, and its own adjoint is the full frequency mesh with the same number of positive
frequencies. -/
theorem C51_matsubara_adjoint (beta : ℝ) (s : Matsubara.Stat) (n : Int) (hn : 1 ≤ n) (p : Bool) :
    let w := Matsubara.Mesh.mk' beta s n p
    accepted (adjImFreq w) w = true ∧ warns (adjImFreq w) w = false ∧
    adjImTime (adjImFreq w) = Matsubara.Mesh.mk' beta s n false ∧
    accepted (adjImFreq w) (adjImTime (adjImFreq w)) = true := by
  have h6 : Int.tdiv (6 * (n - 1 + 1) + 1 - 1) 6 = n := by rw [Int.tdiv_eq_ediv_of_nonneg (by omega)]; omega
  have hadj : adjImTime (adjImFreq (Matsubara.Mesh.mk' beta s n p)) = Matsubara.Mesh.mk' beta s n false := by
    simp only [adjImTime, adjImFreq, Matsubara.Mesh.mk', if_true]
    rw [h6]
  refine ⟨?_, ?_, hadj, ?_⟩
  · simp [accepted, adjImFreq, Matsubara.Mesh.mk']; omega
  · simp [warns, adjImFreq, Matsubara.Mesh.mk']
  · rw [hadj]; simp [accepted, adjImFreq, Matsubara.Mesh.mk']; omega

example : (adjImFreq (Matsubara.Mesh.mk' 10 .fermion 4 true)).n = 25 := by decide

/-- The converse fails: a time mesh whose size is not `6 n + 1` is not the adjoint of its adjoint. -/
theorem C51_time_mesh_not_recovered (beta : ℝ) : (adjImFreq (adjImTime ⟨beta, .fermion, 10⟩)).n = 7 := by
  have : Int.tdiv 9 6 = 1 := by decide
  simp [adjImFreq, adjImTime, Matsubara.Mesh.mk', this]

/-- **C51, real axis.** For every mesh of at least two points on a non-empty interval, the adjoint mesh has the
same number of points and satisfies `delta_t * delta_w * L = 2 pi`, with and without the shift; the adjoint of
the adjoint has the original step. -/
theorem C51_real_adjoint {K : Type} [Field K] [LinearOrder K] [IsStrictOrderedRing K] [FloorRing K] (pi a b : K) (hpi : 0 < pi) (hab : a < b)
    (n : Int) (hn : 2 ≤ n) (shift shift' : Bool) :
    ∃ t w t', Linear.mk' a b n = some t ∧ adjReal pi t shift = some w ∧ adjReal pi w shift' = some t' ∧
      w.L = n ∧ t.delta * w.delta * n = 2 * pi ∧ t'.L = n ∧ t'.delta = t.delta ∧
      (shift = false → w.xmin = - w.xmax) := by
  have hn2 : (2 : K) ≤ n := by exact_mod_cast hn
  have hn0 : (n : K) ≠ 0 := by intro h; linarith
  have hn1 : (n : K) - 1 ≠ 0 := by intro h; linarith
  have step : ∀ (d : K), 0 < d → ∀ (m : Linear.Mesh K), m.L = n → m.delta = d → ∀ sh, ∃ w, adjReal pi m sh = some w ∧ w.L = n ∧
      w.delta = 2 * pi / (n * d) ∧ (sh = false → w.xmin = - w.xmax) := by
    intro d hd m hL hdl sh
    have hw : 0 < pi * ((n - 1 : Int) : K) / ((n : K) * d) := by
      apply div_pos (mul_pos hpi _) (mul_pos (by linarith) hd)
      push_cast; linarith
    unfold adjReal
    simp only [hL, hdl]
    cases sh
    · have hlt : -(pi * ((n - 1 : Int) : K) / ((n : K) * d)) < pi * ((n - 1 : Int) : K) / ((n : K) * d) := by linarith
      refine ⟨_, Linear.mk'_eq hlt hn, rfl, ?_, fun _ => rfl⟩
      simp only
      push_cast
      field_simp
      ring
    · have hlt : -(pi * ((n - 1 : Int) : K) / ((n : K) * d)) + pi / n / d < pi * ((n - 1 : Int) : K) / ((n : K) * d) + pi / n / d := by linarith
      refine ⟨_, Linear.mk'_eq hlt hn, rfl, ?_, by simp⟩
      simp only
      push_cast
      field_simp
      ring
  have hs := Linear.step_pos hab hn
  have hne : b - a ≠ 0 := by intro h; linarith
  obtain ⟨w, hw, hwL, hwd, hsym⟩ := step ((b - a) / ((n : K) - 1)) hs ⟨n, a, b, (b - a) / ((n : K) - 1), some (1 / ((b - a) / ((n : K) - 1)))⟩ rfl rfl shift
  have hwpos : 0 < w.delta := by rw [hwd]; apply div_pos (by linarith) (mul_pos (by linarith) hs)
  obtain ⟨t', ht', htL, htd, _⟩ := step w.delta hwpos w hwL rfl shift'
  refine ⟨_, w, t', Linear.mk'_eq hab hn, hw, ht', hwL, ?_, htL, ?_, hsym⟩
  · rw [hwd]; field_simp
  · rw [htd, hwd]
    have := hpi.ne'
    field_simp

example : (2 : ℚ) * (adjReal (22 / 7) ((Linear.mk' (0 : ℚ) 6 4).getD ⟨0, 0, 0, 0, none⟩)).elim 0 (·.delta) * 4 = 2 * (22 / 7) := by
  decide +kernel

end Verif.MeshEq
