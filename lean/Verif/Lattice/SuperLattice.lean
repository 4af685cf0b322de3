import Mathlib.LinearAlgebra.Matrix.Adjugate
import Mathlib.LinearAlgebra.Matrix.ToLin
import Mathlib.LinearAlgebra.Matrix.NonsingularInverse
import Mathlib.LinearAlgebra.FreeModule.Finite.CardQuotient
import Mathlib.LinearAlgebra.Determinant
import Mathlib.Data.Complex.Basic

/-!
# Properties C125, C126: superlattices

Source: `/repo/python/triqs/lattice/super_lattice.py`.

Simplifications: the units are integers, and `numpy.linalg.det`, `numpy.linalg.inv` followed by
`numpy.rint` are the exact integer determinant and the exact `|det| · M⁻¹`. Coordinates are functions
on `Fin n` with `n` the dimension, so shapes agree by construction. The two loops over the coordinates
beyond the dimension, which run over the single value 0 and are cut off at line 84, are left out.
-/

namespace Verif.SuperLattice
open Matrix

/-! ## Model -/

/-- the exceptions which the code raises -/
inductive Err where
  | value
  | assertion
  | attribute
  | index
  | type
  deriving DecidableEq

abbrev Vec (n : ℕ) := Fin n → ℤ

/-- an element of `cluster_sites`: whether it is a Python list, and the coordinates. A tuple never
compares equal to a list -/
structure Site (n : ℕ) where
  isList : Bool
  pos : Vec n

instance {n : ℕ} : DecidableEq (Site n) := fun a b =>
  decidable_of_iff (a.isList = b.isList ∧ a.pos = b.pos) (by cases a; cases b; simp)

/-- the superlattice: the units (rows), the sites of the cluster -/
structure SL (n : ℕ) where
  units : Matrix (Fin n) (Fin n) ℤ
  sites : List (Site n)

variable {n : ℕ}

/-- `Ncluster_sites`, super_lattice.py:61 -/
def size (units : Matrix (Fin n) (Fin n) ℤ) : ℕ := units.det.natAbs

/-- `_Mtilde`, super_lattice.py:63-64: `|det| · M⁻¹` with `M` the transpose of the units -/
def tilde (units : Matrix (Fin n) (Fin n) ℤ) : Matrix (Fin n) (Fin n) ℤ :=
  units.det.sign • unitsᵀ.adjugate

/-- Python's `range(lo, hi)` -/
def pyRange (lo hi : ℤ) : List ℤ := (List.range (hi - lo).toNat).map (fun k : ℕ => lo + (k : ℤ))

/-- `max` of a row, super_lattice.py:76-78; the rows are not empty for the dimensions 1, 2, 3 -/
def rowMax : (n : ℕ) → (Fin n → ℤ) → ℤ
  | 0, _ => 0
  | 1, v => v 0
  | k + 2, v => max (v 0) (rowMax (k + 1) (fun i => v i.succ))

/-- the nested loops of super_lattice.py:81-84: all vectors with coordinate `i` in
`range(-a[i], a[i]+1)`, the last coordinate fastest -/
def box : (n : ℕ) → (Fin n → ℤ) → List (Vec n)
  | 0, _ => [Fin.elim0]
  | k + 1, a => (pyRange (-(a 0)) (a 0 + 1)).flatMap
      (fun x => (box k (fun i => a i.succ)).map (fun v => Fin.cons x v))

/-- the half sizes of the search, super_lattice.py:76-78: `ndim` times the largest element of the row -/
def reach (units : Matrix (Fin n) (Fin n) ℤ) : Fin n → ℤ :=
  fun i => n * rowMax n (fun j => unitsᵀ i j)

/-- the test of super_lattice.py:85-86; `min` and `max` of the components -/
def inCell (units : Matrix (Fin n) (Fin n) ℤ) (v : Vec n) : Bool :=
  decide ((∀ i, 0 ≤ (tilde units *ᵥ v) i) ∧ (∀ i, (tilde units *ᵥ v) i < size units))

/-- the automatic computation of the sites, super_lattice.py:73-87 -/
def autoSites (units : Matrix (Fin n) (Fin n) ℤ) : List (Site n) :=
  ((box n (reach units)).filter (inCell units)).map (fun v => ⟨true, v⟩)

/-- the constructor up to the assertion of super_lattice.py:89 -/
def build (units : Matrix (Fin n) (Fin n) ℤ) (given : Option (List (Site n))) : Except Err (SL n) :=
  if size units = 0 then .error .assertion
  else match given with
    | some l => if l.length = size units then .ok ⟨units, l⟩ else .error .assertion
    | none =>
      if n = 1 ∨ n = 2 ∨ n = 3 then
        if (autoSites units).length = size units then .ok ⟨units, autoSites units⟩ else .error .assertion
      else .error .value

/-- position of the first equal element (`list.index`) -/
def indexOf (l : List (Site n)) (x : Site n) : Except Err ℕ :=
  if l.idxOf x < l.length then .ok (l.idxOf x) else .error .value

/-- `change_coordinates_L_to_SL`, super_lattice.py:147-152; `//` rounds down -/
def toSL (s : SL n) (x : Vec n) : Except Err (Vec n × ℕ) :=
  let R : Vec n := fun i => (tilde s.units *ᵥ x) i / (size s.units : ℤ)
  match indexOf s.sites ⟨true, x - s.unitsᵀ *ᵥ R⟩ with
  | .ok α => .ok (R, α)
  | .error e => .error e

/-- `change_coordinates_SL_to_L`, super_lattice.py:143-145: `__cluster_sites` is a list (lines 71, 73),
and a list cannot be indexed with `[alpha,:]` -/
def toL (_s : SL n) (_R : Vec n) (_α : ℕ) : Except Err (Vec n) := .error .type

/-- `pack_index_site_orbital`, super_lattice.py:154-156 -/
def pack (N site orb : ℕ) : ℕ := site + orb * N

/-- `unpack_index_site_orbital`, super_lattice.py:158-163 -/
def unpack (N index : ℕ) : ℕ × ℕ := (index - index / N * N, index / N)

section fold
variable {K : Type} [Field K]

/-- a dictionary from displacements to square arrays, in order of insertion -/
abbrev Dict (n : ℕ) (K : Type) := List (Vec n × (ℕ → ℕ → K))

/-- reading a dictionary, zero for an absent key -/
def Dict.get (d : Dict n K) (R : Vec n) : ℕ → ℕ → K := (d.lookup R).getD (fun _ _ => 0)

/-- `if R not in Res: Res[R] = zeros`, super_lattice.py:136 -/
def ensure (d : Dict n K) (R : Vec n) : Dict n K :=
  if R ∈ d.map Prod.fst then d else d ++ [(R, fun _ _ => 0)]

/-- `Res[R][i, j] += v` for a present key -/
def addAt (d : Dict n K) (R : Vec n) (i j : ℕ) (v : K) : Dict n K :=
  d.map (fun p => if p.1 = R then (p.1, fun a b => if a = i ∧ b = j then p.2 a b + v else p.2 a b) else p)

/-- the two inner loops, super_lattice.py:138-140 -/
def addBlock (N norb : ℕ) (d : Dict n K) (R : Vec n) (site α : ℕ) (t : ℕ → ℕ → K) : Dict n K :=
  (List.range norb).foldl (fun d a =>
    (List.range norb).foldl (fun d b => addAt d R (pack N site a) (pack N α b) (t a b)) d) d

/-- one pass of the loop over the displacements, super_lattice.py:134-140. With `remove_internal` the
test of line 137 reads `self.tb_lattice`, which is not an attribute of the object -/
def foldStep (s : SL n) (norb : ℕ) (removeInternal : Bool) (nsite : ℕ) (cs : Vec n)
    (d : Dict n K) (p : Vec n × (ℕ → ℕ → K)) : Except Err (Dict n K) :=
  match toSL s (cs + p.1) with
  | .error e => .error e
  | .ok (R, α) =>
    if removeInternal then .error .attribute
    else .ok (addBlock (size s.units) norb (ensure d R) R nsite α p.2)

/-- `fold`, super_lattice.py:124-141 -/
def fold (s : SL n) (norb : ℕ) (d1 : Dict n K) (removeInternal : Bool) : Except Err (Dict n K) :=
  if d1 = [] then .error .index
  else (s.sites.zipIdx).foldlM (fun d c =>
    d1.foldlM (fun d p => foldStep s norb removeInternal c.2 c.1.pos d p) d) []

/-- `orbital_positions`, super_lattice.py:104, with `real` the coordinates of a lattice point -/
def positions {E : Type} [Add E] (s : SL n) (real : Vec n → E) (pos : List E) : List E :=
  pos.flatMap (fun p => s.sites.map (fun c => p + real c.pos))

end fold

/-! ## Specification -/

/-- the cell of the superlattice: the points whose coordinates in the basis of the units are in `[0, 1[`,
written without fractions as `M · k = |det| · v` with `k` in `[0, |det|[` -/
def Cell (units : Matrix (Fin n) (Fin n) ℤ) (v : Vec n) : Prop :=
  ∃ k : Vec n, (∀ i, 0 ≤ k i ∧ k i < size units) ∧ unitsᵀ *ᵥ k = (size units : ℤ) • v

/-- coordinates of the site number `α` -/
def SL.at (s : SL n) (α : ℕ) : Vec n := ((s.sites[α]?).map Site.pos).getD 0

/-- the sites are the points of the cell, each once, as Python lists -/
def Canonical (s : SL n) : Prop :=
  size s.units ≠ 0 ∧ s.sites.Nodup ∧ ∀ c : Site n, c ∈ s.sites ↔ c.isList = true ∧ Cell s.units c.pos

/-! ## Proofs -/

theorem tilde_mul (u : Matrix (Fin n) (Fin n) ℤ) : tilde u * uᵀ = (size u : ℤ) • (1 : Matrix (Fin n) (Fin n) ℤ) := by
  rw [tilde, size, Matrix.smul_mul, Matrix.adjugate_mul, Matrix.det_transpose, smul_smul, Int.sign_mul_self_eq_natAbs]

theorem mul_tilde (u : Matrix (Fin n) (Fin n) ℤ) : uᵀ * tilde u = (size u : ℤ) • (1 : Matrix (Fin n) (Fin n) ℤ) := by
  rw [tilde, size, Matrix.mul_smul, Matrix.mul_adjugate, Matrix.det_transpose, smul_smul, Int.sign_mul_self_eq_natAbs]

theorem tilde_units (u : Matrix (Fin n) (Fin n) ℤ) (R : Vec n) : tilde u *ᵥ (uᵀ *ᵥ R) = (size u : ℤ) • R := by
  rw [Matrix.mulVec_mulVec, tilde_mul, Matrix.smul_mulVec, Matrix.one_mulVec]

theorem units_tilde (u : Matrix (Fin n) (Fin n) ℤ) (R : Vec n) : uᵀ *ᵥ (tilde u *ᵥ R) = (size u : ℤ) • R := by
  rw [Matrix.mulVec_mulVec, mul_tilde, Matrix.smul_mulVec, Matrix.one_mulVec]

theorem smul_inj {c : ℕ} (hc : c ≠ 0) {v w : Vec n} (h : (c : ℤ) • v = (c : ℤ) • w) : v = w := by
  funext i
  have := congrFun h i
  simp only [Pi.smul_apply, smul_eq_mul] at this
  exact Int.eq_of_mul_eq_mul_left (by exact_mod_cast hc) this

theorem units_inj (u : Matrix (Fin n) (Fin n) ℤ) (h : size u ≠ 0) {R S : Vec n} (e : uᵀ *ᵥ R = uᵀ *ᵥ S) : R = S := by
  apply smul_inj h
  rw [← tilde_units, ← tilde_units, e]

theorem tilde_inj (u : Matrix (Fin n) (Fin n) ℤ) (h : size u ≠ 0) {R S : Vec n} (e : tilde u *ᵥ R = tilde u *ᵥ S) : R = S := by
  apply smul_inj h
  rw [← units_tilde, ← units_tilde, e]

/-- the test of the code decides membership in the cell -/
theorem inCell_iff (u : Matrix (Fin n) (Fin n) ℤ) (h : size u ≠ 0) (v : Vec n) : inCell u v = true ↔ Cell u v := by
  rw [inCell, decide_eq_true_iff]
  constructor
  · rintro ⟨h1, h2⟩
    exact ⟨tilde u *ᵥ v, fun i => ⟨h1 i, h2 i⟩, units_tilde u v⟩
  · rintro ⟨k, hk, e⟩
    have : tilde u *ᵥ v = k := by
      apply smul_inj h
      rw [← Matrix.mulVec_smul, ← e, tilde_units]
    rw [this]
    exact ⟨fun i => (hk i).1, fun i => (hk i).2⟩

/-- quotient and remainder: every point is a vector of the superlattice plus a point of the cell -/
theorem decompose (u : Matrix (Fin n) (Fin n) ℤ) (h : size u ≠ 0) (x : Vec n) :
    Cell u (x - uᵀ *ᵥ (fun i => (tilde u *ᵥ x) i / (size u : ℤ))) := by
  refine ⟨fun i => (tilde u *ᵥ x) i % (size u : ℤ), fun i => ?_, ?_⟩
  · have : (0 : ℤ) < size u := by exact_mod_cast Nat.pos_of_ne_zero h
    exact ⟨Int.emod_nonneg _ this.ne', Int.emod_lt_of_pos _ this⟩
  · have e : (fun i => (tilde u *ᵥ x) i % (size u : ℤ))
        = tilde u *ᵥ x - (size u : ℤ) • (fun i => (tilde u *ᵥ x) i / (size u : ℤ)) := by
      funext i
      simp only [Pi.sub_apply, Pi.smul_apply, smul_eq_mul]
      exact Int.emod_def _ _
    rw [e, Matrix.mulVec_sub, units_tilde, Matrix.mulVec_smul, smul_sub]

/-- the decomposition is unique -/
theorem decompose_unique (u : Matrix (Fin n) (Fin n) ℤ) (h : size u ≠ 0) {R v : Vec n} (hv : Cell u v) :
    (fun i => (tilde u *ᵥ (uᵀ *ᵥ R + v)) i / (size u : ℤ)) = R := by
  obtain ⟨k, hk, e⟩ := hv
  have hp : (0 : ℤ) < size u := by exact_mod_cast Nat.pos_of_ne_zero h
  have : tilde u *ᵥ v = k := by
    apply smul_inj h
    rw [← Matrix.mulVec_smul, ← e, tilde_units]
  funext i
  rw [Matrix.mulVec_add, tilde_units, this]
  simp only [Pi.add_apply, Pi.smul_apply, smul_eq_mul]
  rw [add_comm, Int.add_mul_ediv_left _ _ hp.ne', Int.ediv_eq_zero_of_lt (hk i).1 (hk i).2, zero_add]

/-- the number of points in the cell is the determinant -/
theorem card_cell (u : Matrix (Fin n) (Fin n) ℤ) (h : size u ≠ 0) : Nat.card {v : Vec n // Cell u v} = size u := by
  let f : Vec n →ₗ[ℤ] Vec n := Matrix.toLin' uᵀ
  have hf : Function.Injective f := fun R S e => units_inj u h (by simpa [f] using e)
  let e : Vec n ≃ₗ[ℤ] LinearMap.range f := LinearEquiv.ofInjective f hf
  have key := Submodule.natAbs_det_equiv (LinearMap.range f) e
  have hd : (LinearMap.range f).subtype ∘ₗ AddMonoidHom.toIntLinearMap (e : Vec n →+ LinearMap.range f) = f := by
    ext x
    rfl
  rw [hd, LinearMap.det_toLin', Matrix.det_transpose] at key
  rw [size, key]
  refine Nat.card_congr (Equiv.ofBijective (fun v => Submodule.Quotient.mk v.1) ⟨?_, ?_⟩)
  · rintro ⟨v, hv⟩ ⟨w, hw⟩ e
    rw [Submodule.Quotient.eq] at e
    obtain ⟨R, hR⟩ := e
    have hR : uᵀ *ᵥ R = v - w := by simpa [f] using hR
    have h1 := decompose_unique u h (R := R) hw
    have h2 := decompose_unique u h (R := 0) hv
    rw [hR, sub_add_cancel] at h1
    rw [Matrix.mulVec_zero, zero_add, h1] at h2
    subst h2
    simp only [Subtype.mk.injEq]
    rw [Matrix.mulVec_zero] at hR
    exact sub_eq_zero.mp hR.symm
  · intro q
    obtain ⟨x, rfl⟩ := Submodule.Quotient.mk_surjective _ q
    refine ⟨⟨_, decompose u h x⟩, ?_⟩
    rw [Submodule.Quotient.eq]
    refine ⟨-(fun i => (tilde u *ᵥ x) i / (size u : ℤ)), ?_⟩
    simp only [f, Matrix.toLin'_apply, Matrix.mulVec_neg]
    abel

theorem mem_pyRange {lo hi x : ℤ} : x ∈ pyRange lo hi ↔ lo ≤ x ∧ x < hi := by
  simp only [pyRange, List.mem_map, List.mem_range]
  constructor
  · rintro ⟨k, hk, rfl⟩; omega
  · rintro ⟨h1, h2⟩
    exact ⟨(x - lo).toNat, by omega, by omega⟩

theorem nodup_pyRange (lo hi : ℤ) : (pyRange lo hi).Nodup :=
  List.Nodup.map (fun a b (e : lo + (a : ℤ) = lo + b) => by omega) List.nodup_range

theorem mem_box : ∀ (n : ℕ) (a : Fin n → ℤ) (v : Vec n), v ∈ box n a ↔ ∀ i, -(a i) ≤ v i ∧ v i ≤ a i
  | 0, a, v => by
    simp only [box, List.mem_singleton]
    exact ⟨fun _ i => i.elim0, fun _ => funext fun i => i.elim0⟩
  | k + 1, a, v => by
    simp only [box, List.mem_flatMap, List.mem_map, mem_pyRange, mem_box k]
    rw [Fin.forall_fin_succ]
    constructor
    · rintro ⟨x, hx, w, hw, rfl⟩
      refine ⟨by simp only [Fin.cons_zero]; omega, fun i => ?_⟩
      simpa only [Fin.cons_succ] using hw i
    · rintro ⟨h0, h1⟩
      exact ⟨v 0, by omega, fun i => v i.succ, h1, Fin.cons_self_tail v⟩

theorem nodup_box : ∀ (n : ℕ) (a : Fin n → ℤ), (box n a).Nodup
  | 0, a => by simp [box]
  | k + 1, a => by
    rw [box, List.nodup_flatMap]
    refine ⟨fun x _ => (nodup_box k _).map (fun v w e => (Fin.cons_inj.mp e).2), ?_⟩
    refine (nodup_pyRange _ _).imp ?_
    intro x y hxy
    simp only [Function.onFun, List.disjoint_left, List.mem_map]
    rintro _ ⟨v, _, rfl⟩ ⟨w, _, e⟩
    exact hxy (Fin.cons_inj.mp e).1.symm

theorem nodup_autoSites (u : Matrix (Fin n) (Fin n) ℤ) : (autoSites u).Nodup :=
  ((nodup_box n _).filter _).map (fun v w e => by simpa using e)

theorem mem_autoSites (u : Matrix (Fin n) (Fin n) ℤ) (h : size u ≠ 0) (c : Site n) :
    c ∈ autoSites u ↔ c.isList = true ∧ Cell u c.pos ∧ ∀ i, -(reach u i) ≤ c.pos i ∧ c.pos i ≤ reach u i := by
  obtain ⟨b, v⟩ := c
  simp only [autoSites, List.mem_map, List.mem_filter, mem_box, inCell_iff u h, Site.mk.injEq]
  constructor
  · rintro ⟨w, ⟨h1, h2⟩, rfl, rfl⟩; exact ⟨rfl, h2, h1⟩
  · rintro ⟨rfl, h2, h1⟩; exact ⟨v, ⟨h1, h2⟩, rfl, rfl⟩

theorem finite_cell (u : Matrix (Fin n) (Fin n) ℤ) (h : size u ≠ 0) : Finite {v : Vec n // Cell u v} :=
  Nat.finite_of_card_ne_zero (by rw [card_cell u h]; exact h)

/-- a list of as many distinct points of the cell as the determinant contains all points of the cell -/
theorem complete (u : Matrix (Fin n) (Fin n) ℤ) (h : size u ≠ 0) (l : List (Vec n)) (hl : l.Nodup)
    (hc : ∀ v ∈ l, Cell u v) (hn : size u ≤ l.length) {v : Vec n} (hv : Cell u v) : v ∈ l := by
  have := finite_cell u h
  let f : Fin l.length → {v : Vec n // Cell u v} := fun i => ⟨l.get i, hc _ (List.get_mem l i)⟩
  have hf : Function.Injective f := by
    intro i j e
    exact List.nodup_iff_injective_get.mp hl (congrArg Subtype.val e)
  have hb := hf.bijective_of_nat_card_le (by rw [card_cell u h]; simpa using hn)
  obtain ⟨i, hi⟩ := hb.2 ⟨v, hv⟩
  have : l.get i = v := congrArg Subtype.val hi
  rw [← this]
  exact List.get_mem l i

/-- a list of distinct points of the cell is not longer than the determinant -/
theorem at_most (u : Matrix (Fin n) (Fin n) ℤ) (h : size u ≠ 0) (l : List (Vec n)) (hl : l.Nodup)
    (hc : ∀ v ∈ l, Cell u v) : l.length ≤ size u := by
  have := finite_cell u h
  let f : Fin l.length → {v : Vec n // Cell u v} := fun i => ⟨l.get i, hc _ (List.get_mem l i)⟩
  have hf : Function.Injective f := by
    intro i j e
    exact List.nodup_iff_injective_get.mp hl (congrArg Subtype.val e)
  have := Nat.card_le_card_of_injective f hf
  rw [card_cell u h] at this
  simpa using this

theorem autoSites_pos (u : Matrix (Fin n) (Fin n) ℤ) :
    (autoSites u).map Site.pos = (box n (reach u)).filter (inCell u) := by
  rw [autoSites, List.map_map]
  exact List.map_id' _

/-- the assertion of the constructor holds exactly if the search reaches the whole cell -/
theorem auto_length (u : Matrix (Fin n) (Fin n) ℤ) (h : size u ≠ 0) :
    (autoSites u).length = size u ↔ ∀ v, Cell u v → ∀ i, -(reach u i) ≤ v i ∧ v i ≤ reach u i := by
  have hl : (autoSites u).length = ((box n (reach u)).filter (inCell u)).length := by
    rw [← autoSites_pos, List.length_map]
  have hnd : ((box n (reach u)).filter (inCell u)).Nodup := (nodup_box n _).filter _
  have hc : ∀ v ∈ (box n (reach u)).filter (inCell u), Cell u v := fun v hv =>
    (inCell_iff u h v).mp (List.mem_filter.mp hv).2
  rw [hl]
  constructor
  · intro e v hv
    have := complete u h _ hnd hc e.ge hv
    exact (mem_box n _ v).mp (List.mem_filter.mp this).1
  · intro hr
    refine le_antisymm (at_most u h _ hnd hc) ?_
    have := finite_cell u h
    have hm : ∀ v, Cell u v → v ∈ (box n (reach u)).filter (inCell u) := fun v hv =>
      List.mem_filter.mpr ⟨(mem_box n _ v).mpr (hr v hv), (inCell_iff u h v).mpr hv⟩
    have hi : Function.Injective (fun v : {v : Vec n // Cell u v} =>
        (⟨_, List.idxOf_lt_length_iff.mpr (hm v.1 v.2)⟩ : Fin ((box n (reach u)).filter (inCell u)).length)) := by
      rintro ⟨v, hv⟩ ⟨w, hw⟩ e
      simp only [Fin.mk.injEq] at e
      simpa using (List.idxOf_inj (hm v hv)).mp e
    have := Nat.card_le_card_of_injective _ hi
    rw [card_cell u h] at this
    simpa using this

theorem le_rowMax : ∀ (n : ℕ) (v : Fin n → ℤ) (i : Fin n), v i ≤ rowMax n v
  | 0, _, i => i.elim0
  | 1, v, i => by rw [Subsingleton.elim i 0]; exact le_refl _
  | k + 2, v, i => by
    rw [rowMax]
    refine Fin.cases (le_max_left _ _) (fun j => ?_) i
    exact le_trans (le_rowMax (k + 1) (fun i => v i.succ) j) (le_max_right _ _)

theorem rowMax_mem : ∀ (n : ℕ) (v : Fin (n + 1) → ℤ), ∃ i, v i = rowMax (n + 1) v
  | 0, v => ⟨0, rfl⟩
  | k + 1, v => by
    rw [rowMax]
    obtain ⟨j, hj⟩ := rowMax_mem k (fun i => v i.succ)
    rcases max_choice (v 0) (rowMax (k + 1) fun i => v i.succ) with e | e
    · exact ⟨0, e.symm⟩
    · exact ⟨j.succ, by rw [e]; exact hj⟩

/-- bound on the coordinates of the points of the cell -/
theorem cell_bound (u : Matrix (Fin n) (Fin n) ℤ) (h : size u ≠ 0) (B : Fin n → ℤ)
    (hB : ∀ i j, |u j i| ≤ B i) {v : Vec n} (hv : Cell u v) (i : Fin n) : |v i| ≤ n * B i := by
  obtain ⟨k, hk, e⟩ := hv
  have hp : (0 : ℤ) < size u := by exact_mod_cast Nat.pos_of_ne_zero h
  have ei := congrFun e i
  simp only [Matrix.mulVec, dotProduct, Matrix.transpose_apply, Pi.smul_apply, smul_eq_mul] at ei
  have : (size u : ℤ) * |v i| ≤ size u * (n * B i) := by
    rw [← abs_of_pos hp, ← abs_mul, abs_of_pos hp, ← ei]
    refine le_trans (Finset.abs_sum_le_sum_abs _ _) ?_
    refine le_trans (Finset.sum_le_sum (g := fun _ => B i * size u) (fun j _ => ?_)) ?_
    · rw [abs_mul, abs_of_nonneg (hk j).1]
      exact mul_le_mul (hB i j) (hk j).2.le (hk j).1 (le_trans (abs_nonneg _) (hB i j))
    · simp only [Finset.sum_const, Finset.card_univ, Fintype.card_fin, nsmul_eq_mul]
      exact le_of_eq (by ring)
  exact le_of_mul_le_mul_left this hp

/-- **C125** when the automatic computation of the sites succeeds, the sites are exactly the points of the
cell, and there are as many as the determinant says -/
theorem C125_sites (u : Matrix (Fin n) (Fin n) ℤ) (s : SL n) (hb : build u none = .ok s) :
    s.units = u ∧ Canonical s ∧ s.sites.length = size u := by
  unfold build at hb
  split at hb
  · cases hb
  rename_i h
  split at hb
  · rename_i h'
    cases h'
  split at hb
  swap
  · cases hb
  split at hb
  swap
  · cases hb
  rename_i hl
  cases hb
  refine ⟨rfl, ⟨h, nodup_autoSites u, fun c => ?_⟩, hl⟩
  rw [mem_autoSites u h]
  constructor
  · rintro ⟨h1, h2, _⟩; exact ⟨h1, h2⟩
  · rintro ⟨h1, h2⟩; exact ⟨h1, h2, (auto_length u h).mp hl _ h2⟩

/-- **C125** the automatic computation succeeds exactly if the units are independent, the dimension is at
most three and every point of the cell lies within the searched box -/
theorem C125_outcome (u : Matrix (Fin n) (Fin n) ℤ) :
    (∃ s, build u none = .ok s) ↔
      u.det ≠ 0 ∧ (n = 1 ∨ n = 2 ∨ n = 3) ∧ ∀ v, Cell u v → ∀ i, |v i| ≤ n * rowMax n (fun j => u j i) := by
  have hs : size u ≠ 0 ↔ u.det ≠ 0 := by rw [size, Ne, Int.natAbs_eq_zero]
  rw [← hs]
  unfold build
  by_cases h : size u = 0
  · simp [h]
  rw [if_neg h]
  by_cases hn : n = 1 ∨ n = 2 ∨ n = 3
  swap
  · simp [hn]
  simp only [hn, if_true, true_and, h, ne_eq, not_false_eq_true]
  have : (∀ v, Cell u v → ∀ i, |v i| ≤ n * rowMax n (fun j => u j i)) ↔ (autoSites u).length = size u := by
    rw [auto_length u h]
    simp only [abs_le]
    rfl
  rw [this]
  by_cases hl : (autoSites u).length = size u
  · simp [hl]
  · simp [hl]

/-- **C125** a sufficient condition: in each coordinate some unit has an element as large as the absolute
values of all of them. In particular units without negative elements are accepted -/
theorem C125_accepts (u : Matrix (Fin n) (Fin n) ℤ) (hd : u.det ≠ 0) (hn : n = 1 ∨ n = 2 ∨ n = 3)
    (hm : ∀ i, ∃ j, ∀ k, |u k i| ≤ u j i) : ∃ s, build u none = .ok s := by
  rw [C125_outcome]
  refine ⟨hd, hn, fun v hv i => ?_⟩
  refine cell_bound u (by rwa [size, Ne, Int.natAbs_eq_zero]) (fun i => rowMax n (fun j => u j i)) (fun i j => ?_) hv i
  obtain ⟨k, hk⟩ := hm i
  exact le_trans (hk j) (le_rowMax n (fun j => u j i) k)

/-- **C125** but units which all point backwards in one coordinate are refused, though they span a superlattice: the
search uses the largest element without its absolute value -/
theorem C125_refuses (u : Matrix (Fin n) (Fin n) ℤ) (i : Fin n) (hi : ∀ j, u j i < 0) : ¬ ∃ s, build u none = .ok s := by
  rw [C125_outcome]
  rintro ⟨hd, _, h⟩
  have h0 := h 0 ⟨0, fun j => ⟨le_refl _, ?_⟩, by simp⟩ i
  · cases n with
    | zero => exact i.elim0
    | succ n =>
      obtain ⟨j, hj⟩ := rowMax_mem n (fun j => u j i)
      rw [← hj] at h0
      simp only [Pi.zero_apply, abs_zero] at h0
      have hn : (0 : ℤ) < ((n + 1 : ℕ) : ℤ) := by exact_mod_cast Nat.succ_pos n
      have := mul_neg_of_pos_of_neg hn (hi j)
      omega
  · have : size u ≠ 0 := by rwa [size, Ne, Int.natAbs_eq_zero]
    simp only [Pi.zero_apply]
    exact_mod_cast Nat.pos_of_ne_zero this

theorem toSL_eq (s : SL n) (x : Vec n) (R : Vec n) (α : ℕ) (hR : (fun i => (tilde s.units *ᵥ x) i / (size s.units : ℤ)) = R)
    (hα : indexOf s.sites ⟨true, x - s.unitsᵀ *ᵥ R⟩ = .ok α) : toSL s x = .ok (R, α) := by
  unfold toSL
  rw [hR]
  simp only [hα]

theorem at_get (s : SL n) {α : ℕ} (h : α < s.sites.length) : s.at α = s.sites[α].pos := by
  simp [SL.at, List.getElem?_eq_getElem h]

theorem site_eq (s : SL n) (hs : Canonical s) {α : ℕ} (h : α < s.sites.length) : s.sites[α] = ⟨true, s.at α⟩ := by
  have := ((hs.2.2 _).mp (List.getElem_mem h)).1
  rw [at_get s h, ← this]

theorem at_cell (s : SL n) (hs : Canonical s) {α : ℕ} (h : α < s.sites.length) : Cell s.units (s.at α) := by
  rw [at_get s h]
  exact ((hs.2.2 _).mp (List.getElem_mem h)).2

/-- **C125** with the sites of the cell the change of coordinates is a bijection: every lattice point has
exactly one pair of a superlattice vector and a site, and the code finds it -/
theorem C125_coordinates (s : SL n) (hs : Canonical s) (x R : Vec n) (α : ℕ) :
    toSL s x = .ok (R, α) ↔ α < s.sites.length ∧ x = s.unitsᵀ *ᵥ R + s.at α := by
  have fwd : ∀ (R : Vec n) (α : ℕ), α < s.sites.length → toSL s (s.unitsᵀ *ᵥ R + s.at α) = .ok (R, α) := by
    intro R α hα
    refine toSL_eq s _ R α (decompose_unique s.units hs.1 (at_cell s hs hα)) ?_
    rw [add_sub_cancel_left, ← site_eq s hs hα, indexOf, hs.2.1.idxOf_getElem, if_pos hα]
  constructor
  · intro e
    have hc := decompose s.units hs.1 x
    have hm := (hs.2.2 ⟨true, _⟩).mpr ⟨rfl, hc⟩
    obtain ⟨β, hβ, eβ⟩ := List.getElem_of_mem hm
    have hat : s.at β = x - s.unitsᵀ *ᵥ (fun i => (tilde s.units *ᵥ x) i / (size s.units : ℤ)) := by
      rw [at_get s hβ, eβ]
    have hx : x = s.unitsᵀ *ᵥ (fun i => (tilde s.units *ᵥ x) i / (size s.units : ℤ)) + s.at β := by
      rw [hat]; abel
    have := fwd (fun i => (tilde s.units *ᵥ x) i / (size s.units : ℤ)) β hβ
    rw [← hx, e] at this
    cases this
    exact ⟨hβ, hx⟩
  · rintro ⟨hα, rfl⟩
    exact fwd R α hα

/-- **C125** and it never fails -/
theorem C125_total (s : SL n) (hs : Canonical s) (x : Vec n) : ∃ R α, toSL s x = .ok (R, α) := by
  have hc := decompose s.units hs.1 x
  have hm := (hs.2.2 ⟨true, _⟩).mpr ⟨rfl, hc⟩
  refine ⟨_, s.sites.idxOf ⟨true, x - s.unitsᵀ *ᵥ fun i => (tilde s.units *ᵥ x) i / (size s.units : ℤ)⟩,
    toSL_eq s x _ _ rfl ?_⟩
  rw [indexOf, if_pos (List.idxOf_lt_length_iff.mpr hm)]

/-- **C125** sites given by the user: the change of coordinates works for all points exactly if the sites
are those of the cell, written as lists. Any other choice of representatives is refused later on -/
theorem C125_given (u : Matrix (Fin n) (Fin n) ℤ) (l : List (Site n)) (s : SL n) (hb : build u (some l) = .ok s) :
    (∀ x, ∃ p, toSL s x = .ok p) ↔ Canonical s := by
  constructor
  swap
  · intro hs x
    obtain ⟨R, α, e⟩ := C125_total s hs x
    exact ⟨_, e⟩
  unfold build at hb
  split at hb
  · cases hb
  rename_i h
  simp only at hb
  split at hb
  swap
  · cases hb
  rename_i hl
  cases hb
  intro ht
  have hin : ∀ v, Cell u v → (⟨true, v⟩ : Site n) ∈ l := by
    intro v hv
    obtain ⟨p, hp⟩ := ht v
    have h0 := decompose_unique u h (R := 0) hv
    rw [Matrix.mulVec_zero, zero_add] at h0
    unfold toSL at hp
    simp only at hp
    rw [h0, Matrix.mulVec_zero, sub_zero] at hp
    unfold indexOf at hp
    split at hp
    · rename_i e
      split at e
      · rename_i hlt
        exact List.idxOf_lt_length_iff.mp hlt
      · cases e
    · cases hp
  have hfin := finite_cell u h
  let f : {v : Vec n // Cell u v} → l.toFinset := fun v => ⟨⟨true, v.1⟩, List.mem_toFinset.mpr (hin v.1 v.2)⟩
  have hf : Function.Injective f := by
    rintro ⟨v, hv⟩ ⟨w, hw⟩ e
    simpa [f] using e
  have hcard : l.length ≤ l.toFinset.card := by
    have := Nat.card_le_card_of_injective f hf
    rw [card_cell u h, Nat.card_eq_fintype_card, Fintype.card_coe] at this
    rw [hl]; exact this
  have hnd : l.Nodup := by
    have : (l : Multiset (Site n)).toFinset.card = Multiset.card (l : Multiset (Site n)) :=
      le_antisymm (Multiset.toFinset_card_le _) (by simpa using hcard)
    exact Multiset.coe_nodup.mp (Multiset.toFinset_card_eq_card_iff_nodup.mp this)
  have hb := hf.bijective_of_nat_card_le (by
    rw [card_cell u h, ← hl, Nat.card_eq_fintype_card, Fintype.card_coe]
    exact List.toFinset_card_le l)
  refine ⟨h, hnd, fun c => ⟨fun hc => ?_, fun hc => ?_⟩⟩
  · obtain ⟨v, hv⟩ := hb.2 ⟨c, List.mem_toFinset.mpr hc⟩
    have : (⟨true, v.1⟩ : Site n) = c := congrArg Subtype.val hv
    rw [← this]
    exact ⟨rfl, v.2⟩
  · obtain ⟨b, v⟩ := c
    obtain ⟨rfl, h2⟩ := hc
    exact hin v h2

/-- **C125** sites given as tuples are never found -/
theorem C125_tuples (s : SL n) (ht : ∀ c ∈ s.sites, c.isList = false) (x : Vec n) : toSL s x = .error .value := by
  unfold toSL indexOf
  simp only
  rw [if_neg]
  intro h
  have := ht _ (List.idxOf_lt_length_iff.mp h)
  cases this

/-- **C125** the map in the other direction never returns -/
theorem C125_inverse_never (s : SL n) (R : Vec n) (α : ℕ) (v : Vec n) : toL s R α ≠ .ok v := by
  intro h
  cases h

/-! ### Folding -/

theorem pack_lt {N o site orb : ℕ} (hs : site < N) (ho : orb < o) : pack N site orb < o * N := by
  unfold pack
  calc site + orb * N < N + orb * N := by omega
    _ = (orb + 1) * N := by ring
    _ ≤ o * N := Nat.mul_le_mul_right _ ho

theorem unpack_pack {N site : ℕ} (orb : ℕ) (hs : site < N) : unpack N (pack N site orb) = (site, orb) := by
  have hp : 0 < N := by omega
  have : (site + orb * N) / N = orb := by
    rw [Nat.add_mul_div_right _ _ hp, Nat.div_eq_of_lt hs, zero_add]
  simp only [unpack, pack, this]
  rw [Nat.add_sub_cancel]

theorem pack_unpack {N i : ℕ} : pack N (unpack N i).1 (unpack N i).2 = i := by
  simp only [unpack, pack]
  exact Nat.sub_add_cancel (Nat.div_mul_le_self i N)

theorem pack_inj {N s s' a a' : ℕ} (hs : s < N) (hs' : s' < N) : pack N s a = pack N s' a' ↔ s = s' ∧ a = a' := by
  constructor
  · intro e
    have := unpack_pack a hs
    rw [e, unpack_pack a' hs'] at this
    simpa [eq_comm] using this
  · rintro ⟨rfl, rfl⟩; rfl

section fold
variable {K : Type} [Field K]

def keys (d : Dict n K) : List (Vec n) := d.map Prod.fst

theorem get_cons (p : Vec n × (ℕ → ℕ → K)) (d : Dict n K) (R : Vec n) :
    Dict.get (p :: d) R = if R = p.1 then p.2 else Dict.get d R := by
  obtain ⟨k, t⟩ := p
  unfold Dict.get
  by_cases h : R = k
  · subst h; simp
  · rw [List.lookup_cons, beq_false_of_ne h, if_neg h]

theorem get_absent (d : Dict n K) {R : Vec n} (h : R ∉ keys d) : Dict.get d R = fun _ _ => 0 := by
  induction d with
  | nil => rfl
  | cons p d ih =>
    simp only [keys, List.map_cons, List.mem_cons, not_or] at h
    rw [get_cons, if_neg h.1]
    exact ih h.2

theorem get_ensure (d : Dict n K) (R R' : Vec n) : Dict.get (ensure d R) R' = Dict.get d R' := by
  unfold ensure
  split
  · rfl
  rename_i h
  induction d with
  | nil =>
    rw [List.nil_append, get_cons]
    split <;> rfl
  | cons p d ih =>
    rw [List.cons_append, get_cons, get_cons]
    split
    · rfl
    · exact ih (fun h' => h (by simp only [List.map_cons, List.mem_cons]; exact Or.inr h'))

theorem keys_ensure (d : Dict n K) (R R' : Vec n) : R' ∈ keys (ensure d R) ↔ R' ∈ keys d ∨ R' = R := by
  unfold ensure keys
  split
  · rename_i h
    constructor
    · exact Or.inl
    · rintro (h' | rfl)
      · exact h'
      · exact h
  · simp

theorem nodup_ensure (d : Dict n K) (R : Vec n) (h : (keys d).Nodup) : (keys (ensure d R)).Nodup := by
  unfold ensure keys at *
  split
  · exact h
  · rename_i h'
    rw [List.map_append, List.nodup_append]
    refine ⟨h, by simp, ?_⟩
    intro a ha b hb
    simp only [List.map_cons, List.map_nil, List.mem_singleton] at hb
    subst hb
    rintro rfl
    exact h' ha

theorem keys_addAt (d : Dict n K) (R : Vec n) (i j : ℕ) (v : K) : keys (addAt d R i j v) = keys d := by
  unfold keys addAt
  rw [List.map_map]
  apply List.map_congr_left
  intro p _
  simp only [Function.comp]
  split <;> rfl

theorem get_addAt (d : Dict n K) (R : Vec n) (i j : ℕ) (v : K) (hR : R ∈ keys d) (R' : Vec n) (a b : ℕ) :
    Dict.get (addAt d R i j v) R' a b = Dict.get d R' a b + if R' = R ∧ a = i ∧ b = j then v else 0 := by
  induction d with
  | nil => simp [keys] at hR
  | cons p d ih =>
    have e : addAt (p :: d) R i j v = (if p.1 = R then (p.1, fun a b => if a = i ∧ b = j then p.2 a b + v else p.2 a b) else p)
        :: addAt d R i j v := rfl
    rw [e, get_cons, get_cons]
    by_cases hp : p.1 = R
    · rw [if_pos hp]
      by_cases hR' : R' = p.1
      · simp only [hR', if_true, hp, true_and]
        split <;> simp
      · rw [if_neg hR', if_neg hR']
        have hne : R' ≠ R := fun h => hR' (h.trans hp.symm)
        by_cases hd : R ∈ keys d
        · rw [ih hd]
        · have : addAt d R i j v = d := by
            unfold addAt
            conv_rhs => rw [← List.map_id d]
            apply List.map_congr_left
            intro q hq
            rw [if_neg]
            · rfl
            · intro h
              exact hd (by rw [← h]; exact List.mem_map_of_mem hq)
          rw [this]
          simp [hne]
    · rw [if_neg hp]
      have hd : R ∈ keys d := by
        simp only [keys, List.map_cons, List.mem_cons] at hR
        rcases hR with h | h
        · exact absurd h.symm hp
        · exact h
      by_cases hR' : R' = p.1
      · have hne : R' ≠ R := fun h => hp (hR'.symm.trans h)
        simp [hR', hp]
      · rw [if_neg hR', if_neg hR', ih hd]

theorem addRow (N o : ℕ) (R : Vec n) (site α x : ℕ) (t : ℕ → ℕ → K) : ∀ (l : List ℕ) (d : Dict n K),
    l.Nodup → R ∈ keys d →
    keys (l.foldl (fun d b => addAt d R (pack N site x) (pack N α b) (t x b)) d) = keys d ∧
    ∀ (R' : Vec n) (i b : ℕ) (α' : ℕ), α' < N → α < N →
      Dict.get (l.foldl (fun d b => addAt d R (pack N site x) (pack N α b) (t x b)) d) R' i (pack N α' b)
        = Dict.get d R' i (pack N α' b) + if R' = R ∧ i = pack N site x ∧ α' = α ∧ b ∈ l then t x b else 0
  | [], d, _, _ => by simp
  | y :: l, d, hl, hR => by
    have hR1 : R ∈ keys (addAt d R (pack N site x) (pack N α y) (t x y)) := by rw [keys_addAt]; exact hR
    obtain ⟨h1, h2⟩ := addRow N o R site α x t l _ (List.nodup_cons.mp hl).2 hR1
    rw [List.foldl_cons]
    refine ⟨by rw [h1, keys_addAt], fun R' i b α' hα' hα => ?_⟩
    rw [h2 R' i b α' hα' hα, get_addAt _ _ _ _ _ hR, add_assoc]
    congr 1
    simp only [pack_inj hα' hα]
    have hy := (List.nodup_cons.mp hl).1
    by_cases c1 : R' = R ∧ i = pack N site x ∧ α' = α
    · obtain ⟨rfl, rfl, rfl⟩ := c1
      by_cases hb : b = y
      · subst hb
        simp [hy]
      · simp [hb]
    · have e1 : ¬ (R' = R ∧ i = pack N site x ∧ α' = α ∧ b ∈ l) := fun h => c1 ⟨h.1, h.2.1, h.2.2.1⟩
      have e2 : ¬ (R' = R ∧ i = pack N site x ∧ α' = α ∧ b = y) := fun h => c1 ⟨h.1, h.2.1, h.2.2.1⟩
      have e3 : ¬ (R' = R ∧ i = pack N site x ∧ α' = α ∧ b ∈ y :: l) := fun h => c1 ⟨h.1, h.2.1, h.2.2.1⟩
      rw [if_neg e1, if_neg e2, if_neg e3, add_zero]

theorem addRows (N o : ℕ) (R : Vec n) (site α : ℕ) (t : ℕ → ℕ → K) : ∀ (l : List ℕ) (d : Dict n K),
    l.Nodup → R ∈ keys d →
    keys (l.foldl (fun d a => (List.range o).foldl (fun d b => addAt d R (pack N site a) (pack N α b) (t a b)) d) d) = keys d ∧
    ∀ (R' : Vec n) (a b site' α' : ℕ), b < o → site' < N → site < N → α' < N → α < N →
      Dict.get (l.foldl (fun d a => (List.range o).foldl (fun d b => addAt d R (pack N site a) (pack N α b) (t a b)) d) d)
          R' (pack N site' a) (pack N α' b)
        = Dict.get d R' (pack N site' a) (pack N α' b)
          + if R' = R ∧ site' = site ∧ α' = α ∧ a ∈ l then t a b else 0
  | [], d, _, _ => by simp
  | y :: l, d, hl, hR => by
    obtain ⟨k1, k2⟩ := addRow N o R site α y t (List.range o) d List.nodup_range hR
    rw [List.foldl_cons]
    obtain ⟨h1, h2⟩ := addRows N o R site α t l _ (List.nodup_cons.mp hl).2 (by rw [k1]; exact hR)
    refine ⟨by rw [h1, k1], fun R' a b site' α' hb hs' hs hα' hα => ?_⟩
    rw [h2 R' a b site' α' hb hs' hs hα' hα, k2 R' _ b α' hα' hα, add_assoc]
    congr 1
    simp only [pack_inj hs' hs]
    have hy := (List.nodup_cons.mp hl).1
    simp only [List.mem_range, hb, and_true]
    by_cases c1 : R' = R ∧ site' = site ∧ α' = α
    · obtain ⟨rfl, rfl, rfl⟩ := c1
      by_cases hb : a = y
      · subst hb
        simp [hy]
      · simp [hb]
    · have e1 : ¬ (R' = R ∧ site' = site ∧ α' = α ∧ a ∈ l) := fun h => c1 ⟨h.1, h.2.1, h.2.2.1⟩
      have e2 : ¬ (R' = R ∧ (site' = site ∧ a = y) ∧ α' = α) := fun h => c1 ⟨h.1, h.2.1.1, h.2.2⟩
      have e3 : ¬ (R' = R ∧ site' = site ∧ α' = α ∧ a ∈ y :: l) := fun h => c1 ⟨h.1, h.2.1, h.2.2.1⟩
      rw [if_neg e1, if_neg e2, if_neg e3, add_zero]

theorem addBlock_spec (N o : ℕ) (R : Vec n) (site α : ℕ) (t : ℕ → ℕ → K) (d : Dict n K) (hR : R ∈ keys d) :
    keys (addBlock N o d R site α t) = keys d ∧
    ∀ (R' : Vec n) (a b site' α' : ℕ), a < o → b < o → site' < N → site < N → α' < N → α < N →
      Dict.get (addBlock N o d R site α t) R' (pack N site' a) (pack N α' b)
        = Dict.get d R' (pack N site' a) (pack N α' b)
          + if R' = R ∧ site' = site ∧ α' = α then t a b else 0 := by
  obtain ⟨h1, h2⟩ := addRows N o R site α t (List.range o) d List.nodup_range hR
  refine ⟨h1, fun R' a b site' α' ha hb hs' hs hα' hα => ?_⟩
  rw [addBlock, h2 R' a b site' α' hb hs' hs hα' hα]
  simp [ha]

/-- the loop over the displacements for one site -/
theorem fold_inner (s : SL n) (hs : Canonical s) (o α : ℕ) (hα : α < s.sites.length) (hN : s.sites.length = size s.units) :
    ∀ (d1 d : Dict n K), (keys d1).Nodup → (keys d).Nodup →
    ∃ d', d1.foldlM (fun d p => foldStep s o false α (s.at α) d p) d = .ok d' ∧ (keys d').Nodup ∧
      (∀ R, R ∈ keys d' ↔ R ∈ keys d ∨ ∃ β, β < s.sites.length ∧ s.unitsᵀ *ᵥ R + s.at β - s.at α ∈ keys d1) ∧
      ∀ (R : Vec n) (a b α' β : ℕ), a < o → b < o → α' < s.sites.length → β < s.sites.length →
        Dict.get d' R (pack (size s.units) α' a) (pack (size s.units) β b)
          = Dict.get d R (pack (size s.units) α' a) (pack (size s.units) β b)
            + if α' = α then Dict.get d1 (s.unitsᵀ *ᵥ R + s.at β - s.at α) a b else 0
  | [], d, _, hd => by
    refine ⟨d, rfl, hd, fun R => by simp [keys], fun R a b α' β _ _ _ _ => ?_⟩
    simp [Dict.get]
  | (r, t) :: d1, d, h1, hd => by
    obtain ⟨S, γ, e⟩ := C125_total s hs (s.at α + r)
    obtain ⟨hγ, hx⟩ := (C125_coordinates s hs _ S γ).mp e
    have hr : ∀ (R : Vec n) (β : ℕ), β < s.sites.length →
        (s.unitsᵀ *ᵥ R + s.at β - s.at α = r ↔ R = S ∧ β = γ) := by
      intro R β hβ
      constructor
      · intro h
        have hy : s.at α + r = s.unitsᵀ *ᵥ R + s.at β := by rw [← h]; abel
        have := (C125_coordinates s hs _ R β).mpr ⟨hβ, hy⟩
        rw [e] at this
        cases this
        exact ⟨rfl, rfl⟩
      · rintro ⟨rfl, rfl⟩
        rw [← hx]; abel
    have hn1 : r ∉ keys d1 ∧ (keys d1).Nodup := List.nodup_cons.mp h1
    have hS : S ∈ keys (ensure d S) := (keys_ensure d S S).mpr (Or.inr rfl)
    obtain ⟨b1, b2⟩ := addBlock_spec (size s.units) o S α γ t (ensure d S) hS
    obtain ⟨d', e', hd', hk, hg⟩ := fold_inner s hs o α hα hN d1
      (addBlock (size s.units) o (ensure d S) S α γ t) hn1.2 (by rw [b1]; exact nodup_ensure d S hd)
    refine ⟨d', ?_, hd', fun R => ?_, fun R a b α' β ha hb hα' hβ => ?_⟩
    · rw [List.foldlM_cons]
      have : foldStep s o false α (s.at α) d (r, t) = .ok (addBlock (size s.units) o (ensure d S) S α γ t) := by
        simp [foldStep, e]
      rw [this]
      exact e'
    · rw [hk, b1, keys_ensure]
      have : keys ((r, t) :: d1) = r :: keys d1 := rfl
      rw [this]
      simp only [List.mem_cons]
      constructor
      · rintro ((h | rfl) | ⟨β, hβ, h⟩)
        · exact Or.inl h
        · exact Or.inr ⟨γ, hγ, Or.inl ((hr R γ hγ).mpr ⟨rfl, rfl⟩)⟩
        · exact Or.inr ⟨β, hβ, Or.inr h⟩
      · rintro (h | ⟨β, hβ, h | h⟩)
        · exact Or.inl (Or.inl h)
        · exact Or.inl (Or.inr ((hr R β hβ).mp h).1)
        · exact Or.inr ⟨β, hβ, h⟩
    · rw [hg R a b α' β ha hb hα' hβ, b2 R a b α' β ha hb (hN ▸ hα') (hN ▸ hα) (hN ▸ hβ) (hN ▸ hγ), get_ensure, add_assoc]
      congr 1
      rw [get_cons]
      by_cases hαα : α' = α
      · subst hαα
        simp only [true_and, if_true]
        by_cases hc : R = S ∧ β = γ
        · rw [if_pos hc, if_pos ((hr R β hβ).mpr hc), (hr R β hβ).mpr hc, get_absent d1 hn1.1, add_zero]
        · rw [if_neg hc, if_neg (fun h => hc ((hr R β hβ).mp h)), zero_add]
      · simp [hαα]

/-- the loop over the sites -/
theorem fold_outer (s : SL n) (hs : Canonical s) (o : ℕ) (hN : s.sites.length = size s.units) (d1 : Dict n K)
    (h1 : (keys d1).Nodup) : ∀ (l : List (Site n)) (k : ℕ) (d : Dict n K), s.sites = s.sites.take k ++ l → k + l.length = s.sites.length →
    (keys d).Nodup →
    ∃ d', (l.zipIdx k).foldlM (fun d c => d1.foldlM (fun d p => foldStep s o false c.2 c.1.pos d p) d) d = .ok d' ∧
      (keys d').Nodup ∧
      (∀ R, R ∈ keys d' ↔ R ∈ keys d ∨ ∃ α β, k ≤ α ∧ α < s.sites.length ∧ β < s.sites.length ∧
        s.unitsᵀ *ᵥ R + s.at β - s.at α ∈ keys d1) ∧
      ∀ (R : Vec n) (a b α β : ℕ), a < o → b < o → α < s.sites.length → β < s.sites.length →
        Dict.get d' R (pack (size s.units) α a) (pack (size s.units) β b)
          = Dict.get d R (pack (size s.units) α a) (pack (size s.units) β b)
            + if k ≤ α then Dict.get d1 (s.unitsᵀ *ᵥ R + s.at β - s.at α) a b else 0
  | [], k, d, _, hk, hd => by
    refine ⟨d, rfl, hd, fun R => ?_, fun R a b α β _ _ hα _ => ?_⟩
    · constructor
      · exact Or.inl
      · rintro (h | ⟨α, β, h1, h2, _⟩)
        · exact h
        · simp only [List.length_nil] at hk; omega
    · simp only [List.length_nil] at hk
      rw [if_neg (by omega), add_zero]
  | c :: l, k, d, hl, hk, hd => by
    have hklt : k < s.sites.length := by simp only [List.length_cons] at hk; omega
    have hck : s.sites[k] = c := by
      have h2 : s.sites[k]? = some c := by
        rw [hl, List.getElem?_append_right (by simp)]
        simp [Nat.min_eq_left hklt.le]
      rw [List.getElem?_eq_getElem hklt] at h2
      exact Option.some.inj h2
    have hcp : c.pos = s.at k := by rw [at_get s hklt, hck]
    obtain ⟨d0, e0, n0, k0, g0⟩ := fold_inner s hs o k hklt hN d1 d h1 hd
    obtain ⟨d', e', n', k', g'⟩ := fold_outer s hs o hN d1 h1 l (k + 1) d0
      (by
        rw [← List.take_append_getElem hklt, hck, List.append_assoc]
        exact hl)
      (by simp only [List.length_cons] at hk; omega) n0
    refine ⟨d', ?_, n', fun R => ?_, fun R a b α β ha hb hα hβ => ?_⟩
    · rw [List.zipIdx_cons, List.foldlM_cons]
      simp only [hcp]
      rw [e0]
      exact e'
    · rw [k', k0]
      constructor
      · rintro ((h | ⟨β, h2, h3⟩) | ⟨α, β, h4, h5⟩)
        · exact Or.inl h
        · exact Or.inr ⟨k, β, le_refl _, hklt, h2, h3⟩
        · exact Or.inr ⟨α, β, by omega, h5⟩
      · rintro (h | ⟨α, β, h4, h5, h6, h7⟩)
        · exact Or.inl (Or.inl h)
        · rcases Nat.eq_or_lt_of_le h4 with rfl | h4
          · exact Or.inl (Or.inr ⟨β, h6, h7⟩)
          · exact Or.inr ⟨α, β, h4, h5, h6, h7⟩
    · rw [g' R a b α β ha hb hα hβ, g0 R a b α β ha hb hα hβ, add_assoc]
      congr 1
      rcases lt_trichotomy α k with h | rfl | h
      · rw [if_neg (by omega), if_neg (by omega), if_neg (by omega), add_zero]
      · rw [if_pos rfl, if_neg (by omega), if_pos (le_refl _), add_zero]
      · rw [if_neg (by omega), if_pos (by omega), if_pos (by omega), zero_add]

theorem canonical_length (s : SL n) (hs : Canonical s) : s.sites.length = size s.units := by
  have hnd : (s.sites.map Site.pos).Nodup := by
    refine List.Nodup.map_on ?_ hs.2.1
    rintro ⟨x, v⟩ hx ⟨y, w⟩ hy e
    have h1 := ((hs.2.2 _).mp hx).1
    have h2 := ((hs.2.2 _).mp hy).1
    simp only at h1 h2 e
    rw [h1, h2, e]
  have hc : ∀ v ∈ s.sites.map Site.pos, Cell s.units v := by
    intro v hv
    obtain ⟨c, hc, rfl⟩ := List.mem_map.mp hv
    exact ((hs.2.2 _).mp hc).2
  refine le_antisymm (by simpa using at_most s.units hs.1 _ hnd hc) ?_
  have hm : ∀ v, Cell s.units v → v ∈ s.sites.map Site.pos := fun v hv =>
    List.mem_map.mpr ⟨⟨true, v⟩, (hs.2.2 _).mpr ⟨rfl, hv⟩, rfl⟩
  have hi : Function.Injective (fun v : {v : Vec n // Cell s.units v} =>
      (⟨_, List.idxOf_lt_length_iff.mpr (hm v.1 v.2)⟩ : Fin (s.sites.map Site.pos).length)) := by
    rintro ⟨v, hv⟩ ⟨w, hw⟩ e
    simp only [Fin.mk.injEq] at e
    simpa using (List.idxOf_inj (hm v hv)).mp e
  have := Nat.card_le_card_of_injective _ hi
  rw [card_cell s.units hs.1] at this
  simpa using this

/-- **C126** the folded function: its element between site `α`, orbital `a` and site `β`, orbital `b` of the
cell at distance `R` is the element of the original between the same two lattice points -/
theorem C126_fold (s : SL n) (hs : Canonical s) (o : ℕ) (d1 : Dict n K) (hd : d1 ≠ []) (h1 : (keys d1).Nodup) :
    ∃ res, fold s o d1 false = .ok res ∧ (keys res).Nodup ∧
      (∀ R, R ∈ keys res ↔ ∃ α β, α < s.sites.length ∧ β < s.sites.length ∧ s.unitsᵀ *ᵥ R + s.at β - s.at α ∈ keys d1) ∧
      ∀ (R : Vec n) (a b α β : ℕ), a < o → b < o → α < s.sites.length → β < s.sites.length →
        Dict.get res R (pack (size s.units) α a) (pack (size s.units) β b)
          = Dict.get d1 (s.unitsᵀ *ᵥ R + s.at β - s.at α) a b := by
  obtain ⟨res, e, hn, hk, hg⟩ := fold_outer s hs o (canonical_length s hs) d1 h1 s.sites 0 [] (by simp) (by simp) (by simp [keys])
  refine ⟨res, ?_, hn, fun R => ?_, fun R a b α β ha hb hα hβ => ?_⟩
  · rw [fold, if_neg hd]; exact e
  · rw [hk]; simp [keys]
  · rw [hg R a b α β ha hb hα hβ, if_pos (Nat.zero_le _)]
    simp [Dict.get]

/-- **C126** the option `remove_internal` never gives a result -/
theorem C126_remove_never (s : SL n) (hs : s.sites ≠ []) (o : ℕ) (d1 : Dict n K) (hd : d1 ≠ []) (res : Dict n K) :
    fold s o d1 true ≠ .ok res := by
  obtain ⟨c, l, hc⟩ := List.exists_cons_of_ne_nil hs
  obtain ⟨p, m, hp⟩ := List.exists_cons_of_ne_nil hd
  have hstep : ∀ (k : ℕ) (x : Vec n) (d : Dict n K), ∃ e, foldStep s o true k x d p = .error e := by
    intro k x d
    unfold foldStep
    split
    · exact ⟨_, rfl⟩
    · simp
  rw [fold, if_neg hd, hc, List.zipIdx_cons, List.foldlM_cons, hp, List.foldlM_cons]
  obtain ⟨e, he⟩ := hstep 0 c.pos []
  rw [he]
  intro h
  cases h

theorem sum_dict {V : Type} [AddCommMonoid V] (F : Vec n → (ℕ → ℕ → K) → V) : ∀ (d : Dict n K), (keys d).Nodup →
    (d.map (fun p => F p.1 p.2)).sum = ∑ R ∈ (keys d).toFinset, F R (Dict.get d R)
  | [], _ => by simp [keys]
  | p :: d, h => by
    have hn : p.1 ∉ keys d ∧ (keys d).Nodup := List.nodup_cons.mp h
    have e : keys (p :: d) = p.1 :: keys d := rfl
    rw [List.map_cons, List.sum_cons, e, List.toFinset_cons, Finset.sum_insert (by simpa using hn.1), sum_dict F d hn.2,
      get_cons, if_pos rfl]
    congr 1
    refine Finset.sum_congr rfl (fun R hR => ?_)
    rw [get_cons, if_neg]
    rintro rfl
    exact hn.1 (List.mem_toFinset.mp hR)

/-- **C126** folding does not change the operator: applied to any function on the lattice, read as a function
on the cells, the folded hoppings give the same result as the original ones -/
theorem C126_action (s : SL n) (hs : Canonical s) (o : ℕ) (d1 : Dict n K) (h1 : (keys d1).Nodup)
    (res : Dict n K) (hres : fold s o d1 false = .ok res) (ψ : Vec n → ℕ → K) (R0 : Vec n) (α a : ℕ)
    (hα : α < s.sites.length) (ha : a < o) :
    (res.map (fun p => ∑ β ∈ Finset.range s.sites.length, ∑ b ∈ Finset.range o,
        p.2 (pack (size s.units) α a) (pack (size s.units) β b) * ψ (s.unitsᵀ *ᵥ (R0 + p.1) + s.at β) b)).sum
      = (d1.map (fun p => ∑ b ∈ Finset.range o, p.2 a b * ψ (s.unitsᵀ *ᵥ R0 + s.at α + p.1) b)).sum := by
  have hd : d1 ≠ [] := by
    rintro rfl
    simp [fold] at hres
  obtain ⟨res', e', hn, hk, hg⟩ := C126_fold s hs o d1 hd h1
  rw [hres] at e'
  cases e'
  rw [sum_dict (fun R t => ∑ β ∈ Finset.range s.sites.length, ∑ b ∈ Finset.range o,
        t (pack (size s.units) α a) (pack (size s.units) β b) * ψ (s.unitsᵀ *ᵥ (R0 + R) + s.at β) b) res hn,
    sum_dict (fun r t => ∑ b ∈ Finset.range o, t a b * ψ (s.unitsᵀ *ᵥ R0 + s.at α + r) b) d1 h1]
  let G : Vec n → K := fun r => ∑ b ∈ Finset.range o, Dict.get d1 r a b * ψ (s.unitsᵀ *ᵥ R0 + s.at α + r) b
  let φ : Vec n × ℕ → Vec n := fun q => s.unitsᵀ *ᵥ q.1 + s.at q.2 - s.at α
  have e1 : ∑ R ∈ (keys res).toFinset, ∑ β ∈ Finset.range s.sites.length, ∑ b ∈ Finset.range o,
        Dict.get res R (pack (size s.units) α a) (pack (size s.units) β b) * ψ (s.unitsᵀ *ᵥ (R0 + R) + s.at β) b
      = ∑ q ∈ (keys res).toFinset ×ˢ Finset.range s.sites.length, G (φ q) := by
    rw [Finset.sum_product]
    refine Finset.sum_congr rfl (fun R _ => Finset.sum_congr rfl (fun β hβ => Finset.sum_congr rfl (fun b hb => ?_)))
    rw [hg R a b α β ha (Finset.mem_range.mp hb) hα (Finset.mem_range.mp hβ)]
    congr 2
    simp only [φ, Matrix.mulVec_add]
    abel
  rw [e1]
  have hinj : Set.InjOn φ ((keys res).toFinset ×ˢ Finset.range s.sites.length : Finset (Vec n × ℕ)) := by
    rintro ⟨R, β⟩ hq ⟨S, γ⟩ hq' e
    simp only [Finset.coe_product, Set.mem_prod, Finset.mem_coe, Finset.mem_range] at hq hq'
    have e2 : s.unitsᵀ *ᵥ R + s.at β = s.unitsᵀ *ᵥ S + s.at γ := by simpa [φ] using e
    have h2 := (C125_coordinates s hs _ R β).mpr ⟨hq.2, rfl⟩
    rw [e2, (C125_coordinates s hs _ S γ).mpr ⟨hq'.2, rfl⟩] at h2
    simpa [eq_comm] using h2
  rw [← Finset.sum_image (f := G) hinj]
  symm
  apply Finset.sum_subset
  · intro r hr
    obtain ⟨S, γ, e⟩ := C125_total s hs (s.at α + r)
    obtain ⟨hγ, hx⟩ := (C125_coordinates s hs _ S γ).mp e
    have hφ : φ (S, γ) = r := by
      simp only [φ]
      rw [← hx]; abel
    refine Finset.mem_image.mpr ⟨(S, γ), Finset.mem_product.mpr ⟨List.mem_toFinset.mpr ((hk S).mpr ⟨α, γ, hα, hγ, ?_⟩),
      Finset.mem_range.mpr hγ⟩, hφ⟩
    change φ (S, γ) ∈ keys d1
    rw [hφ]
    exact List.mem_toFinset.mp hr
  · intro r _ hr
    have : r ∉ keys d1 := fun h => hr (List.mem_toFinset.mpr h)
    simp only [G, get_absent d1 this, zero_mul, Finset.sum_const_zero]

/-- **C126** bands: an eigenvector of the Hamiltonian of the original lattice at some momentum (a character `χ`
of the lattice) gives an eigenvector of the folded Hamiltonian with the same eigenvalue -/
theorem C126_bands (s : SL n) (hs : Canonical s) (o : ℕ) (d1 : Dict n K) (h1 : (keys d1).Nodup)
    (res : Dict n K) (hres : fold s o d1 false = .ok res) (χ : Vec n → K) (hχ : ∀ x y, χ (x + y) = χ x * χ y)
    (v : ℕ → K) (ε : K)
    (hv : ∀ a < o, (d1.map (fun p => ∑ b ∈ Finset.range o, p.2 a b * (χ p.1 * v b))).sum = ε * v a)
    (α a : ℕ) (hα : α < s.sites.length) (ha : a < o) :
    (res.map (fun p => ∑ β ∈ Finset.range s.sites.length, ∑ b ∈ Finset.range o,
        p.2 (pack (size s.units) α a) (pack (size s.units) β b) * (χ (s.unitsᵀ *ᵥ p.1) * (χ (s.at β) * v b)))).sum
      = ε * (χ (s.at α) * v a) := by
  have h := C126_action s hs o d1 h1 res hres (fun x b => χ x * v b) 0 α a hα ha
  simp only [zero_add, Matrix.mulVec_zero, hχ] at h
  have e1 : (fun p : Vec n × (ℕ → ℕ → K) => ∑ β ∈ Finset.range s.sites.length, ∑ b ∈ Finset.range o,
        p.2 (pack (size s.units) α a) (pack (size s.units) β b) * (χ (s.unitsᵀ *ᵥ p.1) * (χ (s.at β) * v b)))
      = fun p => ∑ β ∈ Finset.range s.sites.length, ∑ b ∈ Finset.range o,
        p.2 (pack (size s.units) α a) (pack (size s.units) β b) * (χ (s.unitsᵀ *ᵥ p.1) * χ (s.at β) * v b) := by
    funext p
    simp only [mul_assoc]
  rw [e1, h]
  have e2 : (fun p : Vec n × (ℕ → ℕ → K) => ∑ b ∈ Finset.range o, p.2 a b * (χ (s.at α) * χ p.1 * v b))
      = fun p => χ (s.at α) * ∑ b ∈ Finset.range o, p.2 a b * (χ p.1 * v b) := by
    funext p
    rw [Finset.mul_sum]
    refine Finset.sum_congr rfl (fun b _ => by ring)
  rw [e2, List.sum_map_mul_left, hv a ha]
  ring

/-- **C126** the positions of the orbitals are in the order of the packed indices -/
theorem C126_positions {E : Type} [Add E] (s : SL n) (hs : Canonical s) (real : Vec n → E) (pos : List E) :
    (positions s real pos).length = pos.length * size s.units ∧
    ∀ (α a : ℕ) (hα : α < s.sites.length) (ha : a < pos.length),
      (positions s real pos)[pack (size s.units) α a]? = some (pos[a] + real (s.at α)) := by
  have hN := canonical_length s hs
  rw [← hN]
  constructor
  · unfold positions
    induction pos with
    | nil => simp
    | cons p pos ih => rw [List.flatMap_cons, List.length_append, ih]; simp; ring
  · intro α a hα ha
    unfold positions pack
    induction pos generalizing a with
    | nil => simp at ha
    | cons p pos ih =>
      rw [List.flatMap_cons]
      cases a with
      | zero =>
        rw [List.getElem?_append_left (by simpa using hα)]
        simp [at_get s hα, List.getElem?_eq_getElem hα]
      | succ a =>
        rw [List.getElem?_append_right (by simp; nlinarith)]
        have : α + (a + 1) * s.sites.length - (s.sites.map (fun c => p + real c.pos)).length = α + a * s.sites.length := by
          rw [List.length_map, Nat.succ_mul]; omega
        rw [this, ih a (by simpa using ha)]
        simp

end fold

theorem unpack_lt {N o i : ℕ} (h : i < o * N) : (unpack N i).1 < N ∧ (unpack N i).2 < o := by
  have hN : 0 < N := by
    rcases Nat.eq_zero_or_pos N with rfl | h'
    · simp at h
    · exact h'
  refine ⟨?_, ?_⟩
  · have := Nat.mod_lt i hN
    have h2 := Nat.div_add_mod i N
    simp only [unpack]
    rw [Nat.mul_comm] at h2
    omega
  · exact Nat.div_lt_of_lt_mul (by rw [Nat.mul_comm]; exact h)

/-- **C126** hermitian hoppings are folded to hermitian hoppings, and the set of displacements stays symmetric, so the
constructor of the tight-binding Hamiltonian accepts them -/
theorem C126_hermitian (s : SL n) (hs : Canonical s) (o : ℕ) (d1 : Dict n ℂ) (h1 : (keys d1).Nodup)
    (res : Dict n ℂ) (hres : fold s o d1 false = .ok res)
    (hk : ∀ r, r ∈ keys d1 → -r ∈ keys d1)
    (hh : ∀ r a b, a < o → b < o → Dict.get d1 (-r) a b = (starRingEnd ℂ) (Dict.get d1 r b a)) :
    (∀ R, R ∈ keys res → -R ∈ keys res) ∧
    ∀ R i j, i < o * size s.units → j < o * size s.units →
      Dict.get res (-R) i j = (starRingEnd ℂ) (Dict.get res R j i) := by
  have hd : d1 ≠ [] := by
    rintro rfl
    simp [fold] at hres
  obtain ⟨res', e', hn, hkk, hg⟩ := C126_fold s hs o d1 hd h1
  rw [hres] at e'
  cases e'
  have hN := canonical_length s hs
  constructor
  · intro R hR
    obtain ⟨α, β, hα, hβ, h⟩ := (hkk R).mp hR
    refine (hkk (-R)).mpr ⟨β, α, hβ, hα, ?_⟩
    have := hk _ h
    have e : -(s.unitsᵀ *ᵥ R + s.at β - s.at α) = s.unitsᵀ *ᵥ (-R) + s.at α - s.at β := by
      rw [Matrix.mulVec_neg]; abel
    rwa [e] at this
  · intro R i j hi hj
    obtain ⟨h2, h3⟩ := unpack_lt hi
    obtain ⟨h4, h5⟩ := unpack_lt hj
    rw [← pack_unpack (N := size s.units) (i := i), ← pack_unpack (N := size s.units) (i := j),
      hg (-R) _ _ _ _ h3 h5 (hN ▸ h2) (hN ▸ h4), hg R _ _ _ _ h5 h3 (hN ▸ h4) (hN ▸ h2), ← hh _ _ _ h3 h5]
    congr 1
    rw [Matrix.mulVec_neg]
    abel

/-! ### Examples -/

/-- the checkerboard: two sites -/
example : (autoSites (n := 2) !![1, 1; -1, 1]).map (fun c => (c.isList, c.pos 0, c.pos 1)) = [(true, 0, 0), (true, 0, 1)] := by
  decide +kernel

example : ∃ s, build (n := 2) !![1, 1; -1, 1] none = .ok s :=
  C125_accepts _ (by decide +kernel) (by omega) (by decide +kernel)

/-- a unit pointing backwards -/
example : ¬ ∃ s, build (n := 1) !![-2] none = .ok s := C125_refuses _ 0 (by decide +kernel)

/-- and one which is too long in the negative direction -/
example : (match build (n := 2) !![-5, 0; 1, 1] none with | .ok _ => none | .error e => some e) = some .assertion := by
  decide +kernel

/-- the point (3, 4) on the checkerboard -/
example : (match toSL ⟨!![1, 1; -1, 1], autoSites (n := 2) !![1, 1; -1, 1]⟩ ![3, 4] with
    | .ok (R, α) => some (R 0, R 1, α) | .error _ => none) = some (3, 0, 1) := by
  decide +kernel

/-- a chain of dimers with the sites 0 and -1 instead of 0 and 1: accepted, then refused -/
example : (match build (n := 1) !![2] (some [⟨true, ![0]⟩, ⟨true, ![-1]⟩]) with
    | .ok s => (match toSL s ![-1] with | .ok _ => none | .error e => some e) | .error _ => none) = some .value := by
  decide +kernel

/-- the chain with nearest-neighbour hopping, in cells of two sites: hopping inside the cell and to both sides -/
example : (match fold (K := ℚ) ⟨!![2], autoSites (n := 1) !![2]⟩ 1 [(![1], fun _ _ => 7), (![-1], fun _ _ => 5)] false with
    | .ok d => d.map (fun p => (p.1 0, p.2 0 0, p.2 0 1, p.2 1 0, p.2 1 1)) | .error _ => [])
    = [(0, 0, 7, 5, 0), (-1, 0, 5, 0, 0), (1, 0, 0, 7, 0)] := by
  decide +kernel

example : (match fold (K := ℚ) ⟨!![2], autoSites (n := 1) !![2]⟩ 1 [(![1], fun _ _ => 7), (![-1], fun _ _ => 5)] true with
    | .ok _ => none | .error e => some e) = some .attribute := by
  decide +kernel

end Verif.SuperLattice
