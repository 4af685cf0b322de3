import Verif.Mesh.Matsubara
import Verif.Mesh.Lattice
import Mathlib.Data.Complex.Basic
import Mathlib.Data.List.Forall2
import Mathlib.Algebra.BigOperators.Group.List.Basic
import Mathlib.Algebra.Module.Basic

/-!
# Property C151: symmetries of Green functions

Source: `/repo/c++/triqs/gfs/gf_sym_grp.hpp` (103-289).

`sym_grp` translates symmetries, which map indices of the mesh and of the target, into symmetries of the data array and leaves the
rest to `nda::sym_grp`. That class is not part of the repository. What is used of it is in `Classes` (every element belongs to one
class and is reached from the first element of its class by symmetries), `ndaInit` and `ndaSymmetrize`.

Simplifications: one mesh is a product of one component; the data indices are lists of integers; no projection of indices
out of bounds (`max_length = 0`). Checks that are only active in debug mode are off.
-/

namespace Verif.SymGrp

/-! ## Model -/

/-- what is used of a mesh: size, `to_index`, `to_data_index` -/
structure UMesh (ι : Type) where
  size : ℤ
  toIndex : ℤ → ι
  toData : ι → ℤ

/-- `nda::operation`: change of sign, complex conjugation -/
structure Op where
  sgn : Bool
  cc : Bool
deriving DecidableEq

def Op.app (o : Op) (z : ℂ) : ℂ := if o.sgn then -(if o.cc then (starRingEnd ℂ) z else z) else if o.cc then (starRingEnd ℂ) z else z

def Op.mul (o p : Op) : Op := ⟨o.sgn != p.sgn, o.cc != p.cc⟩

variable {ι : Type}

abbrev Mesh (ι : Type) := List (UMesh ι)

/-- a symmetry: indices of mesh and target to indices and operation, 45-51 -/
abbrev GfSym (ι : Type) := List ι → List ℤ → List ι × List ℤ × Op

/-- `to_index` of a product mesh -/
def meshIndex (ms : Mesh ι) (x : List ℤ) : List ι := List.zipWith (fun (m : UMesh ι) (d : ℤ) => m.toIndex d) ms (x.take ms.length)

def targetIndex (ms : Mesh ι) (x : List ℤ) : List ℤ := x.drop ms.length

/-- the data index, 157-158, 167-169 -/
def dataIndex (ms : Mesh ι) (i : List ι) (t : List ℤ) : List ℤ := List.zipWith (fun (m : UMesh ι) (j : ι) => m.toData j) ms i ++ t

/-- `to_data_symmetry`, 127-177 -/
def toDataSym (ms : Mesh ι) (f : GfSym ι) (x : List ℤ) : List ℤ × Op :=
  let r := f (meshIndex ms x) (targetIndex ms x)
  (dataIndex ms r.1 r.2.1, r.2.2)

/-- `to_data_init_func`, 187-214, and the data of a function -/
def toDataInit {V : Type} (ms : Mesh ι) (h : List ι → List ℤ → V) (x : List ℤ) : V := h (meshIndex ms x) (targetIndex ms x)

/-- a class of the data array: elements with operations, the first is the representative -/
abbrev Class := List (List ℤ × Op)

/-- the class of an element with its operation -/
def lookup (cls : List Class) (x : List ℤ) : Option (Class × Op) :=
  cls.findSome? fun (c : Class) => (c.find? fun (p : List ℤ × Op) => p.1 = x).map fun (p : List ℤ × Op) => (c, p.2)

/-- `nda::sym_grp::init`: one evaluation per class, the value is transported by the operations -/
def ndaInit (cls : List Class) (h : List ℤ → ℂ) (x : List ℤ) : ℂ :=
  match lookup cls x with
  | some (c, o) => o.app (h ((c.head?.map Prod.fst).getD []))
  | none => 0

/-- `nda::sym_grp::symmetrize`: the mean over the class -/
noncomputable def ndaSymmetrize (cls : List Class) (a : List ℤ → ℂ) (x : List ℤ) : ℂ :=
  match lookup cls x with
  | some (c, o) => o.app ((c.map fun (p : List ℤ × Op) => p.2.app (a p.1)).sum / c.length)
  | none => 0

/-- `init`, 250-255, and `symmetrize`, 262-288, on the data -/
def init (ms : Mesh ι) (cls : List Class) (h : List ι → List ℤ → ℂ) : List ℤ → ℂ := ndaInit cls (toDataInit ms h)

/-- the index returned for the data index of the maximal violation, 264-287 -/
def reported (ms : Mesh ι) (x : List ℤ) : List ι × List ℤ := (meshIndex ms x, targetIndex ms x)

/-! ## Specification -/

/-- the points of a mesh -/
def Valid (m : UMesh ι) (i : ι) : Prop := ∃ d, 0 ≤ d ∧ d < m.size ∧ m.toIndex d = i

/-- `to_data_index` is the inverse of `to_index` -/
def Good (m : UMesh ι) : Prop := ∀ d, 0 ≤ d → d < m.size → m.toData (m.toIndex d) = d

/-- indices that are not on the mesh have data indices out of bounds -/
def Faithful (m : UMesh ι) : Prop := ∀ i, 0 ≤ m.toData i → m.toData i < m.size → Valid m i

/-- indices of mesh and target of a function -/
def ValidIdx (ms : Mesh ι) (shape : List ℤ) (i : List ι) (t : List ℤ) : Prop :=
  List.Forall₂ Valid ms i ∧ List.Forall₂ (fun n (j : ℤ) => 0 ≤ j ∧ j < n) shape t

/-- elements of the data array -/
def InRange (ms : Mesh ι) (shape : List ℤ) (x : List ℤ) : Prop :=
  List.Forall₂ (fun n (j : ℤ) => 0 ≤ j ∧ j < n) (ms.map UMesh.size ++ shape) x

/-- the symmetry has the right number of indices (guaranteed by the types) -/
def Typed (ms : Mesh ι) (shape : List ℤ) (f : GfSym ι) : Prop := ∀ i t, (f i t).1.length = ms.length ∧ (f i t).2.1.length = shape.length

/-- what an operation means: a factor minus one and complex conjugation -/
noncomputable def meaning (o : Op) (z : ℂ) : ℂ := (-1) ^ (if o.sgn then 1 else 0) * if o.cc then ⟨z.re, -z.im⟩ else z

/-- the function has the symmetry -/
def Has (ms : Mesh ι) (shape : List ℤ) (f : GfSym ι) (g : List ι → List ℤ → ℂ) : Prop :=
  ∀ i t, ValidIdx ms shape i t → ValidIdx ms shape (f i t).1 (f i t).2.1 → g (f i t).1 (f i t).2.1 = meaning (f i t).2.2 (g i t)

/-- the array has the symmetry -/
def DataHas (ms : Mesh ι) (shape : List ℤ) (F : List ℤ → List ℤ × Op) (a : List ℤ → ℂ) : Prop :=
  ∀ x, InRange ms shape x → InRange ms shape (F x).1 → a (F x).1 = meaning (F x).2 (a x)

/-- reached by symmetries inside the array -/
inductive Reach (ms : Mesh ι) (shape : List ℤ) (syms : List (List ℤ → List ℤ × Op)) (x : List ℤ) : List ℤ → Op → Prop
  | refl : Reach ms shape syms x x ⟨false, false⟩
  | step (y : List ℤ) (o : Op) (F : List ℤ → List ℤ × Op) : Reach ms shape syms x y o → F ∈ syms → InRange ms shape (F y).1 →
      Reach ms shape syms x (F y).1 ((F y).2.mul o)

/-- the classes of `nda::sym_grp` -/
structure Classes (ms : Mesh ι) (shape : List ℤ) (syms : List (List ℤ → List ℤ × Op)) (cls : List Class) : Prop where
  cover : ∀ x, InRange ms shape x → ∃ c ∈ cls, ∃ o, (x, o) ∈ c
  inRange : ∀ c ∈ cls, ∀ p ∈ c, InRange ms shape p.1
  reach : ∀ c ∈ cls, ∃ rep, c.head? = some (rep, ⟨false, false⟩) ∧ ∀ p ∈ c, Reach ms shape syms rep p.1 p.2
  nodup : ∀ c ∈ cls, (c.map Prod.fst).Nodup
  disjoint : ∀ c ∈ cls, ∀ c' ∈ cls, ∀ p ∈ c, ∀ p' ∈ c', p.1 = p'.1 → c = c'

/-! ## Proofs -/

theorem meaning_eq (o : Op) (z : ℂ) : meaning o z = o.app z := by
  obtain ⟨a, b⟩ := o
  have h : (⟨z.re, -z.im⟩ : ℂ) = (starRingEnd ℂ) z := rfl
  cases a <;> cases b <;> simp [meaning, Op.app, h]

theorem app_mul (o p : Op) (z : ℂ) : (o.mul p).app z = o.app (p.app z) := by
  obtain ⟨a, b⟩ := o
  obtain ⟨c, d⟩ := p
  cases a <;> cases b <;> cases c <;> cases d <;> simp [Op.mul, Op.app]

theorem app_app (o : Op) (z : ℂ) : o.app (o.app z) = z := by
  obtain ⟨a, b⟩ := o
  cases a <;> cases b <;> simp [Op.app]

theorem forall₂_append_split {α β : Type} {R : α → β → Prop} (l1 l2 : List α) (x : List β) :
    List.Forall₂ R (l1 ++ l2) x ↔ List.Forall₂ R l1 (x.take l1.length) ∧ List.Forall₂ R l2 (x.drop l1.length) := by
  constructor
  · intro h
    refine ⟨?_, ?_⟩
    · have := List.forall₂_take l1.length h
      simpa using this
    · have := List.forall₂_drop l1.length h
      simpa using this
  · rintro ⟨h1, h2⟩
    have := List.rel_append h1 h2
    have e : List.take l1.length x ++ List.drop l1.length x = x := List.take_append_drop _ _
    simp only [e] at this
    exact this

/-- indices of an element of the array are valid and give back the element -/
theorem index_of (ms : Mesh ι) (hg : ∀ m ∈ ms, Good m) (shape x : List ℤ) (hx : InRange ms shape x) :
    ValidIdx ms shape (meshIndex ms x) (targetIndex ms x) ∧ dataIndex ms (meshIndex ms x) (targetIndex ms x) = x := by
  unfold InRange at hx
  rw [forall₂_append_split, List.length_map] at hx
  obtain ⟨h1, h2⟩ := hx
  unfold ValidIdx meshIndex targetIndex dataIndex
  have key : ∀ (ms : Mesh ι) (y : List ℤ), (∀ m ∈ ms, Good m) → List.Forall₂ (fun n (j : ℤ) => 0 ≤ j ∧ j < n) (ms.map UMesh.size) y →
      List.Forall₂ Valid ms (List.zipWith (fun (m : UMesh ι) (d : ℤ) => m.toIndex d) ms y) ∧
        List.zipWith (fun (m : UMesh ι) (j : ι) => m.toData j) ms (List.zipWith (fun (m : UMesh ι) (d : ℤ) => m.toIndex d) ms y) = y := by
    intro ms
    induction ms with
    | nil => intro y _ h; cases h; exact ⟨List.Forall₂.nil, rfl⟩
    | cons m ms ih =>
      intro y hg h
      cases h with
      | cons ha hb =>
        rename_i d y
        obtain ⟨i1, i2⟩ := ih y (fun m hm => hg m (by simp [hm])) hb
        refine ⟨List.Forall₂.cons ⟨d, ha.1, ha.2, rfl⟩ i1, ?_⟩
        simp only [List.zipWith_cons_cons]
        rw [i2, hg m (by simp) d ha.1 ha.2]
  obtain ⟨k1, k2⟩ := key ms _ hg h1
  refine ⟨⟨k1, h2⟩, ?_⟩
  rw [k2, List.take_append_drop]

/-- valid indices have an element of the array and are recovered from it -/
theorem data_of (ms : Mesh ι) (hg : ∀ m ∈ ms, Good m) (shape : List ℤ) (i : List ι) (t : List ℤ) (h : ValidIdx ms shape i t) :
    InRange ms shape (dataIndex ms i t) ∧ meshIndex ms (dataIndex ms i t) = i ∧ targetIndex ms (dataIndex ms i t) = t := by
  obtain ⟨h1, h2⟩ := h
  have key : ∀ (ms : Mesh ι) (i : List ι), (∀ m ∈ ms, Good m) → List.Forall₂ Valid ms i →
      (List.zipWith (fun (m : UMesh ι) (j : ι) => m.toData j) ms i).length = ms.length ∧
      List.Forall₂ (fun n (j : ℤ) => 0 ≤ j ∧ j < n) (ms.map UMesh.size) (List.zipWith (fun (m : UMesh ι) (j : ι) => m.toData j) ms i) ∧
      List.zipWith (fun (m : UMesh ι) (d : ℤ) => m.toIndex d) ms (List.zipWith (fun (m : UMesh ι) (j : ι) => m.toData j) ms i) = i := by
    intro ms
    induction ms with
    | nil => intro i _ h; cases h; exact ⟨rfl, List.Forall₂.nil, rfl⟩
    | cons m ms ih =>
      intro i hg h
      cases h with
      | cons ha hb =>
        obtain ⟨d, d0, d1, rfl⟩ := ha
        obtain ⟨i0, i1, i2⟩ := ih _ (fun m hm => hg m (by simp [hm])) hb
        have e := hg m (by simp) d d0 d1
        refine ⟨by simp [i0], ?_, ?_⟩
        · simp only [List.map_cons, List.zipWith_cons_cons]
          exact List.Forall₂.cons (by rw [e]; exact ⟨d0, d1⟩) i1
        · simp only [List.zipWith_cons_cons]
          rw [i2, e]
  obtain ⟨k0, k1, k2⟩ := key ms i hg h1
  unfold InRange meshIndex targetIndex dataIndex
  refine ⟨List.rel_append k1 h2, ?_, ?_⟩
  · rw [List.take_left' k0, k2]
  · rw [List.drop_left' k0]

/-- an element of the array that is the data index of indices on faithful meshes: these are valid -/
theorem valid_of_inRange (ms : Mesh ι) (hF : ∀ m ∈ ms, Faithful m) (shape : List ℤ) (i : List ι) (t : List ℤ) (hi : i.length = ms.length)
    (h : InRange ms shape (dataIndex ms i t)) : ValidIdx ms shape i t := by
  unfold InRange dataIndex at h
  have k0 : (List.zipWith (fun (m : UMesh ι) (j : ι) => m.toData j) ms i).length = ms.length := by simp [hi]
  rw [forall₂_append_split, List.length_map, List.take_left' k0, List.drop_left' k0] at h
  refine ⟨?_, h.2⟩
  have key : ∀ (ms : Mesh ι) (i : List ι), (∀ m ∈ ms, Faithful m) → i.length = ms.length →
      List.Forall₂ (fun n (j : ℤ) => 0 ≤ j ∧ j < n) (ms.map UMesh.size) (List.zipWith (fun (m : UMesh ι) (j : ι) => m.toData j) ms i) →
      List.Forall₂ Valid ms i := by
    intro ms
    induction ms with
    | nil => intro i _ hl _; rw [List.length_eq_zero_iff.mp hl]; exact List.Forall₂.nil
    | cons m ms ih =>
      intro i hF hl h
      cases i with
      | nil => simp at hl
      | cons j i =>
        simp only [List.map_cons, List.zipWith_cons_cons, List.forall₂_cons] at h
        exact List.Forall₂.cons (hF m (by simp) j h.1.1 h.1.2) (ih i (fun m hm => hF m (by simp [hm])) (by simpa using hl) h.2)
  exact key ms i hF hi h.1

/-- the data symmetry is the symmetry, seen through the numbering of the elements -/
theorem C151_translate (ms : Mesh ι) (hg : ∀ m ∈ ms, Good m) (shape : List ℤ) (f : GfSym ι) (i : List ι) (t : List ℤ)
    (h : ValidIdx ms shape i t) : toDataSym ms f (dataIndex ms i t) = (dataIndex ms (f i t).1 (f i t).2.1, (f i t).2.2) := by
  obtain ⟨_, h2, h3⟩ := data_of ms hg shape i t h
  unfold toDataSym
  rw [h2, h3]

/-- a function has the symmetry exactly if its data have it: for symmetries that stay on the mesh, and for all if indices out of the
mesh are out of the array -/
theorem C151_invariant (ms : Mesh ι) (hg : ∀ m ∈ ms, Good m) (shape : List ℤ) (f : GfSym ι) (ht : Typed ms shape f)
    (hF : (∀ m ∈ ms, Faithful m) ∨ ∀ i t, ValidIdx ms shape i t → ValidIdx ms shape (f i t).1 (f i t).2.1) (g : List ι → List ℤ → ℂ) :
    DataHas ms shape (toDataSym ms f) (toDataInit ms g) ↔ Has ms shape f g := by
  constructor
  · intro h i t hv hv'
    obtain ⟨a1, a2, a3⟩ := data_of ms hg shape i t hv
    obtain ⟨b1, b2, b3⟩ := data_of ms hg shape _ _ hv'
    have e := C151_translate ms hg shape f i t hv
    have := h (dataIndex ms i t) a1 (by rw [e]; exact b1)
    rw [e] at this
    unfold toDataInit at this
    rw [a2, a3, b2, b3] at this
    exact this
  · intro h x hx hx'
    obtain ⟨hv, e⟩ := index_of ms hg shape x hx
    have hv' : ValidIdx ms shape (f (meshIndex ms x) (targetIndex ms x)).1 (f (meshIndex ms x) (targetIndex ms x)).2.1 := by
      rcases hF with hF | hF
      · exact valid_of_inRange ms hF shape _ _ (ht _ _).1 hx'
      · exact hF _ _ hv
    obtain ⟨_, b2, b3⟩ := data_of ms hg shape _ _ hv'
    have := h _ _ hv hv'
    unfold toDataInit toDataSym
    rw [b2, b3]
    exact this

/-- symmetric data along a path of symmetries -/
theorem reach_value (ms : Mesh ι) (shape : List ℤ) (syms : List (List ℤ → List ℤ × Op)) (a : List ℤ → ℂ)
    (ha : ∀ F ∈ syms, DataHas ms shape F a) (x : List ℤ) (hx : InRange ms shape x) (y : List ℤ) (o : Op) (h : Reach ms shape syms x y o) :
    InRange ms shape y ∧ a y = o.app (a x) := by
  induction h with
  | refl => exact ⟨hx, by simp [Op.app]⟩
  | step y o F _ hF hr ih =>
    refine ⟨hr, ?_⟩
    rw [ha F hF y ih.1 hr, ih.2, app_mul, meaning_eq]

theorem lookup_spec (ms : Mesh ι) (shape : List ℤ) (syms : List (List ℤ → List ℤ × Op)) (cls : List Class) (hc : Classes ms shape syms cls)
    (x : List ℤ) (hx : InRange ms shape x) : ∃ c ∈ cls, ∃ o, lookup cls x = some (c, o) ∧ (x, o) ∈ c := by
  unfold lookup
  cases h : cls.findSome? fun (c : Class) => (c.find? fun (p : List ℤ × Op) => p.1 = x).map fun (p : List ℤ × Op) => (c, p.2) with
  | none =>
    obtain ⟨c, hcm, o, ho⟩ := hc.cover x hx
    rw [List.findSome?_eq_none_iff] at h
    have := h c hcm
    rw [Option.map_eq_none_iff, List.find?_eq_none] at this
    exact absurd (by simp) (this _ ho)
  | some q =>
    obtain ⟨c', o'⟩ := q
    obtain ⟨c, hcm, he⟩ := List.exists_of_findSome?_eq_some h
    rw [Option.map_eq_some_iff] at he
    obtain ⟨p, hp, he⟩ := he
    simp only [Prod.mk.injEq] at he
    obtain ⟨rfl, rfl⟩ := he
    have h1 := List.mem_of_find?_eq_some hp
    have h2 := List.find?_some hp
    simp only [decide_eq_true_eq] at h2
    refine ⟨c, hcm, p.2, rfl, ?_⟩
    rw [← h2]
    exact h1

/-- `init` with a function that has all symmetries gives that function everywhere, although it is evaluated once per class -/
theorem C151_init (ms : Mesh ι) (hg : ∀ m ∈ ms, Good m) (hF : ∀ m ∈ ms, Faithful m) (shape : List ℤ) (fs : List (GfSym ι))
    (ht : ∀ f ∈ fs, Typed ms shape f) (cls : List Class) (hc : Classes ms shape (fs.map (toDataSym ms)) cls)
    (h : List ι → List ℤ → ℂ) (hh : ∀ f ∈ fs, Has ms shape f h) (i : List ι) (t : List ℤ) (hv : ValidIdx ms shape i t) :
    init ms cls h (dataIndex ms i t) = h i t := by
  obtain ⟨hx, e1, e2⟩ := data_of ms hg shape i t hv
  obtain ⟨c, hcm, o, hl, hm⟩ := lookup_spec ms shape _ cls hc _ hx
  obtain ⟨rep, hr, hall⟩ := hc.reach c hcm
  have hrep : InRange ms shape rep := hc.inRange c hcm (rep, ⟨false, false⟩) (List.mem_of_mem_head? (by rw [hr]; rfl))
  have hsym : ∀ F ∈ fs.map (toDataSym ms), DataHas ms shape F (toDataInit ms h) := by
    intro F hFm
    obtain ⟨f, hf, rfl⟩ := List.mem_map.mp hFm
    exact (C151_invariant ms hg shape f (ht f hf) (Or.inl hF) h).mpr (hh f hf)
  have := (reach_value ms shape _ _ hsym rep hrep _ _ (hall _ hm)).2
  unfold init ndaInit
  rw [hl]
  simp only [hr, Option.map_some, Option.getD_some]
  rw [← this]
  unfold toDataInit
  rw [e1, e2]

theorem mean_const (n : ℕ) (hn : n ≠ 0) (z : ℂ) : (List.replicate n z).sum / n = z := by
  have : (n : ℂ) ≠ 0 := by exact_mod_cast hn
  rw [List.sum_replicate, nsmul_eq_mul, mul_comm, mul_div_assoc, div_self this, mul_one]

/-- symmetrising leaves functions with all symmetries as they are -/
theorem C151_symmetrize (ms : Mesh ι) (hg : ∀ m ∈ ms, Good m) (hF : ∀ m ∈ ms, Faithful m) (shape : List ℤ) (fs : List (GfSym ι))
    (ht : ∀ f ∈ fs, Typed ms shape f) (cls : List Class) (hc : Classes ms shape (fs.map (toDataSym ms)) cls)
    (g : List ι → List ℤ → ℂ) (hh : ∀ f ∈ fs, Has ms shape f g) (x : List ℤ) (hx : InRange ms shape x) :
    ndaSymmetrize cls (toDataInit ms g) x = toDataInit ms g x := by
  obtain ⟨c, hcm, o, hl, hm⟩ := lookup_spec ms shape _ cls hc _ hx
  obtain ⟨rep, hr, hall⟩ := hc.reach c hcm
  have hrep : InRange ms shape rep := hc.inRange c hcm (rep, ⟨false, false⟩) (List.mem_of_mem_head? (by rw [hr]; rfl))
  have hsym : ∀ F ∈ fs.map (toDataSym ms), DataHas ms shape F (toDataInit ms g) := by
    intro F hFm
    obtain ⟨f, hf, rfl⟩ := List.mem_map.mp hFm
    exact (C151_invariant ms hg shape f (ht f hf) (Or.inl hF) g).mpr (hh f hf)
  have key : ∀ p ∈ c, p.2.app (toDataInit ms g p.1) = toDataInit ms g rep := by
    intro p hp
    rw [(reach_value ms shape _ _ hsym rep hrep _ _ (hall _ hp)).2, app_app]
  have hmap : (c.map fun (p : List ℤ × Op) => p.2.app (toDataInit ms g p.1)) = List.replicate c.length (toDataInit ms g rep) := by
    rw [List.eq_replicate_iff]
    refine ⟨by simp, fun b hb => ?_⟩
    obtain ⟨p, hp, rfl⟩ := List.mem_map.mp hb
    exact key p hp
  have hne : c.length ≠ 0 := by
    intro h0
    rw [List.length_eq_zero_iff.mp h0] at hm
    simp at hm
  unfold ndaSymmetrize
  rw [hl]
  simp only
  rw [hmap, mean_const _ hne, ← key _ hm, app_app]

/-- symmetrising twice is symmetrising once -/
theorem C151_idempotent (ms : Mesh ι) (shape : List ℤ) (syms : List (List ℤ → List ℤ × Op)) (cls : List Class)
    (hc : Classes ms shape syms cls) (a : List ℤ → ℂ) (x : List ℤ) (hx : InRange ms shape x) :
    ndaSymmetrize cls (ndaSymmetrize cls a) x = ndaSymmetrize cls a x := by
  obtain ⟨c, hcm, o, hl, hm⟩ := lookup_spec ms shape syms cls hc _ hx
  have hne : c.length ≠ 0 := by
    intro h0
    rw [List.length_eq_zero_iff.mp h0] at hm
    simp at hm
  have key : ∀ p ∈ c, p.2.app (ndaSymmetrize cls a p.1) = (c.map fun (p : List ℤ × Op) => p.2.app (a p.1)).sum / c.length := by
    intro p hp
    obtain ⟨c', hcm', o', hl', hm'⟩ := lookup_spec ms shape syms cls hc p.1 (hc.inRange c hcm p hp)
    have e : c = c' := hc.disjoint c hcm c' hcm' p hp (p.1, o') hm' rfl
    subst e
    have eo : o' = p.2 := by
      have h1 := List.inj_on_of_nodup_map (hc.nodup c hcm) hm' hp rfl
      rw [← h1]
    unfold ndaSymmetrize
    rw [hl', eo]
    simp only
    rw [app_app]
  have hmap : (c.map fun (p : List ℤ × Op) => p.2.app (ndaSymmetrize cls a p.1)) =
      List.replicate c.length ((c.map fun (p : List ℤ × Op) => p.2.app (a p.1)).sum / c.length) := by
    rw [List.eq_replicate_iff]
    refine ⟨by simp, fun b hb => ?_⟩
    obtain ⟨p, hp, rfl⟩ := List.mem_map.mp hb
    exact key p hp
  conv => lhs; unfold ndaSymmetrize
  rw [hl]
  simp only
  rw [show (fun (p : List ℤ × Op) => p.2.app (match lookup cls p.1 with
      | some (c, o) => o.app ((c.map fun (p : List ℤ × Op) => p.2.app (a p.1)).sum / c.length)
      | none => 0)) = fun (p : List ℤ × Op) => p.2.app (ndaSymmetrize cls a p.1) from rfl, hmap, mean_const _ hne]
  unfold ndaSymmetrize
  rw [hl]

/-- the index reported by `symmetrize` is that of the element -/
theorem C151_reported (ms : Mesh ι) (hg : ∀ m ∈ ms, Good m) (shape x : List ℤ) (hx : InRange ms shape x) :
    ValidIdx ms shape (reported ms x).1 (reported ms x).2 ∧ dataIndex ms (reported ms x).1 (reported ms x).2 = x :=
  index_of ms hg shape x hx

/-- Matsubara frequencies as a mesh -/
def imfreq (m : Matsubara.Mesh) : UMesh ℤ := ⟨m.size, m.toIndex, m.toDataIndex⟩

theorem C151_imfreq (m : Matsubara.Mesh) : Good (imfreq m) ∧ Faithful (imfreq m) := by
  constructor
  · intro d _ _
    simp [imfreq, Matsubara.Mesh.toDataIndex, Matsubara.Mesh.toIndex]
  · intro i h1 h2
    exact ⟨m.toDataIndex i, h1, h2, by simp [imfreq, Matsubara.Mesh.toDataIndex, Matsubara.Mesh.toIndex]⟩

/-- lattice and Brillouin-zone meshes without the debug checks, brzone.hpp:184-187, 208-215 -/
def lattice (dims : Lattice.Idx) : UMesh Lattice.Idx :=
  ⟨Lattice.size dims, fun d => ![Int.tdiv d (Lattice.stride0 dims), Int.tdiv (Int.tmod d (Lattice.stride0 dims)) (Lattice.stride1 dims),
    Int.tmod (Int.tmod d (Lattice.stride0 dims)) (Lattice.stride1 dims)],
    fun i => i 0 * Lattice.stride0 dims + i 1 * Lattice.stride1 dims + i 2⟩

theorem C151_lattice (dims : Lattice.Idx) (hd : ∀ k, 0 ≤ dims k) : Good (lattice dims) := by
  intro d h0 h1
  obtain ⟨_, hB, hC, _⟩ := Lattice.C45_index_bijection dims hd
  have hi : Lattice.toIndex dims d = some ((lattice dims).toIndex d) := by
    unfold Lattice.toIndex
    rw [if_pos ⟨h0, h1⟩]
    rfl
  have := (hC _ _).mpr hi
  unfold Lattice.toDataIndex at this
  split at this
  · exact Option.some.inj this
  · cases this

/-! ### Examples -/

/-- on a lattice, an index out of the mesh is the data index of another point: `(0, 2, 0)` on a 2 by 2 lattice is `(1, 0, 0)` -/
theorem C151_alias : ¬ Faithful (lattice ![2, 2, 1]) ∧
    (lattice ![2, 2, 1]).toData ![0, 2, 0] = (lattice ![2, 2, 1]).toData ![1, 0, 0] := by
  refine ⟨?_, by decide⟩
  intro h
  obtain ⟨d, d0, d1, e⟩ := h ![0, 2, 0] (by decide) (by decide)
  have hd : d < 4 := d1
  have : d = 0 ∨ d = 1 ∨ d = 2 ∨ d = 3 := by omega
  rcases this with rfl | rfl | rfl | rfl <;> exact absurd (congrFun e 1) (by decide)

/-- so a periodic function that is invariant under a translation has data that are not invariant under its translation of the array -/
theorem C151_translation : ∃ (f : GfSym Lattice.Idx) (g : List Lattice.Idx → List ℤ → ℂ),
    Typed [lattice ![2, 2, 1]] [] f ∧ Has [lattice ![2, 2, 1]] [] f g ∧
      ¬ DataHas [lattice ![2, 2, 1]] [] (toDataSym [lattice ![2, 2, 1]] f) (toDataInit [lattice ![2, 2, 1]] g) := by
  refine ⟨fun i _ => ([i.headD 0 + ![0, 1, 0]], [], ⟨false, false⟩), fun i _ => (((i.headD 0) 0 : ℤ) : ℂ), fun _ _ => ⟨rfl, rfl⟩, ?_, ?_⟩
  · intro i t _ _
    simp only [meaning_eq, Op.app, Bool.false_eq_true, if_false, List.headD_cons, Pi.add_apply]
    simp
  · intro h
    have := h [1] (List.Forall₂.cons (by decide) List.Forall₂.nil) (List.Forall₂.cons (by decide) List.Forall₂.nil)
    simp [toDataInit, toDataSym, meshIndex, dataIndex, lattice, Lattice.stride0, Lattice.stride1, meaning_eq, Op.app] at this

/-- two fermionic frequencies and `G(-iω) = conj G(iω)`: one class -/
def exMesh : Mesh ℤ := [⟨2, fun d => d - 1, fun i => i + 1⟩]
def exSym : GfSym ℤ := fun i _ => ([-1 - i.headD 0], [], ⟨false, true⟩)
def exClasses : List Class := [[([0], ⟨false, false⟩), ([1], ⟨false, true⟩)]]

theorem exClasses_ok : Classes exMesh [] [toDataSym exMesh exSym] exClasses := by
  have hr0 : InRange exMesh [] [0] := List.Forall₂.cons (by decide) List.Forall₂.nil
  have hr1 : InRange exMesh [] [1] := List.Forall₂.cons (by decide) List.Forall₂.nil
  refine ⟨?_, ?_, ?_, ?_, ?_⟩
  · intro x hx
    unfold InRange exMesh at hx
    simp only [List.map_cons, List.map_nil, List.append_nil] at hx
    cases hx with
    | cons h1 h2 =>
      cases h2
      rename_i d
      have : d = 0 ∨ d = 1 := by omega
      rcases this with rfl | rfl
      · exact ⟨_, List.mem_singleton.mpr rfl, ⟨false, false⟩, by simp⟩
      · exact ⟨_, List.mem_singleton.mpr rfl, ⟨false, true⟩, by simp⟩
  · intro c hc p hp
    rw [exClasses, List.mem_singleton] at hc
    subst hc
    simp only [List.mem_cons, List.not_mem_nil, or_false] at hp
    rcases hp with rfl | rfl
    · exact hr0
    · exact hr1
  · intro c hc
    rw [exClasses, List.mem_singleton] at hc
    subst hc
    refine ⟨[0], rfl, fun p hp => ?_⟩
    simp only [List.mem_cons, List.not_mem_nil, or_false] at hp
    rcases hp with rfl | rfl
    · exact Reach.refl
    · exact Reach.step [0] ⟨false, false⟩ (toDataSym exMesh exSym) Reach.refl (by simp) hr1
  · intro c hc
    rw [exClasses, List.mem_singleton] at hc
    subst hc
    decide
  · intro c hc c' hc' _ _ _ _ _
    rw [exClasses, List.mem_singleton] at hc hc'
    rw [hc, hc']

example (z : ℂ) : init exMesh exClasses (fun i _ => if i = [-1] then z else (starRingEnd ℂ) z) [1] = (starRingEnd ℂ) z := by
  simp [init, ndaInit, lookup, exClasses, toDataInit, meshIndex, exMesh, Op.app]

end Verif.SymGrp
