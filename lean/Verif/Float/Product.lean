import Verif.Float.LinearMesh
import Verif.Float.Interpolation

/-!
# Functions of several variables in double precision

The evaluation of a function on a product of meshes, one variable after the other: at doubles for linear meshes (imaginary time, real time, real frequency), where it interpolates with
rounding, and at indices or closest mesh points for any mesh, where the value is passed through.

Source: `/repo/c++/triqs/mesh/evaluate.hpp` (73-76, 82-84, 97-113), `/repo/c++/triqs/mesh/bases/linear.hpp` (221-228, modelled in `Verif.Float.LinearMesh`). One part of one element of the target. The
number of variables is arbitrary. `none` means an argument outside of the mesh, or that a number is not finite.
-/

namespace Verif.ProductDouble

open Binary64 LinearDouble InterpolationDouble

/-! ## Model -/

/-- a mesh with the argument of its variable -/
inductive Var where
  /-- a linear mesh from `a` to `b` of `L` points, and a double -/
  | value (a b : ℚ) (L : ℤ) (x : ℚ)
  /-- any mesh of `L` points, and an index, evaluate.hpp:73-76 -/
  | index (L i : ℤ)

/-- `evaluate(m, f, x)`, linear.hpp:221-228 and evaluate.hpp:73-76 -/
def eval1 : Var → (ℤ → Option ℚ) → Option ℚ
  | .value a b L x, f => match bracket a b L x with
    | none => none
    | some (i, w) => match f i, f (i + 1) with
      | some u, some v => combine u v w
      | _, _ => none
  | .index _ i, f => f i

/-- `evaluate(mesh_tuple, f, x1, x...)`, evaluate.hpp:97-109: the first variable is evaluated for every argument of the others; with one variable left the two branches are the same -/
def evalAll : List Var → (List ℤ → Option ℚ) → Option ℚ
  | [], f => f []
  | v :: vs, f => evalAll vs (fun ys => eval1 v (fun y => f (y :: ys)))

/-! ## Specification -/

/-- number of points -/
def Var.len : Var → ℤ
  | .value _ _ L _ => L
  | .index L _ => L

/-- the arguments are inside of the mesh -/
def Var.Good : Var → Prop
  | .value a b L x => Scale a b L ∧ IsDouble x ∧ a ≤ x ∧ x ≤ b
  | .index L i => 0 ≤ i ∧ i < L

/-- indices of the mesh -/
def InMesh : List Var → List ℤ → Prop
  | [], is => is = []
  | v :: vs, is => ∃ i js, is = i :: js ∧ 0 ≤ i ∧ i < v.len ∧ InMesh vs js

/-- exact interpolation at the exact position in units of the step; the data are continued arbitrarily outside of the mesh, where they have no weight -/
def Var.exact : Var → (ℤ → ℚ) → ℚ
  | .value a b L x, f => linear f ((x - a) / (b - a) * ((L : ℚ) - 1))
  | .index _ i, f => f i

/-- exact multilinear interpolation -/
def exactAll : List Var → (List ℤ → ℚ) → ℚ
  | [], f => f []
  | v :: vs, f => exactAll vs (fun ys => v.exact (fun y => f (y :: ys)))

/-- relative error of one variable -/
def Var.eps : Var → ℚ
  | .value _ _ L _ => L * 2 ^ (-47 : ℤ)
  | .index _ _ => 0

/-- the errors of all variables -/
def growth (vs : List Var) : ℚ := (vs.map fun v => 1 + v.eps).prod

/-! ## Proofs -/

theorem exact_bound (v : Var) {f : ℤ → ℚ} {A : ℚ} (h : ∀ n, |f n| ≤ A) : |v.exact f| ≤ A := by
  cases v with
  | value a b L x => exact linear_bound h _
  | index L i => exact h i

theorem exact_diff (v : Var) {f g : ℤ → ℚ} {d : ℚ} (h : ∀ n, |f n - g n| ≤ d) : |v.exact f - v.exact g| ≤ d := by
  cases v with
  | value a b L x => exact linear_diff h _
  | index L i => exact h i

theorem exactAll_diff (vs : List Var) : ∀ {f g : List ℤ → ℚ} {d : ℚ}, (∀ is, |f is - g is| ≤ d) → |exactAll vs f - exactAll vs g| ≤ d := by
  induction vs with
  | nil => exact fun h => h []
  | cons v vs ih => exact fun h => ih fun ys => exact_diff v fun y => h (y :: ys)

theorem eps_nonneg {v : Var} (h : v.Good) : 0 ≤ v.eps := by
  cases v with
  | value a b L x =>
    have : (2 : ℤ) ≤ L := h.1.two
    have : (0 : ℚ) ≤ L := by exact_mod_cast (by omega : 0 ≤ L)
    exact mul_nonneg this (two_zpow_pos _).le
  | index L i => exact le_refl _

/-- linear interpolation in a cell, written with the weight -/
theorem linear_cell (f : ℤ → ℚ) (i : ℤ) {w : ℚ} (h0 : 0 ≤ w) (h1 : w ≤ 1) : linear f (i + w) = f i * (1 - w) + f (i + 1) * w := by
  unfold linear
  rcases h1.lt_or_eq with h | h
  · have : ⌊(i : ℚ) + w⌋ = i := by
      rw [Int.floor_eq_iff]
      constructor <;> linarith
    rw [this]
    ring
  · subst h
    have : ⌊(i : ℚ) + 1⌋ = i + 1 := by
      rw [show (i : ℚ) + 1 = ((i + 1 : ℤ) : ℚ) by push_cast; ring, Int.floor_intCast]
    rw [this]
    push_cast
    ring

/-- one variable -/
theorem eval1_err' {v : Var} (hv : v.Good) {A : ℚ} (hA0 : (2 : ℚ) ^ (-1000 : ℤ) ≤ A) (hA1 : A ≤ 2 ^ (1010 : ℤ)) {f : ℤ → Option ℚ} {h : ℤ → ℚ} (hb : ∀ i, |h i| ≤ A)
    (hf : ∀ i, 0 ≤ i → i < v.len → f i = some (h i)) : ∃ y, eval1 v f = some y ∧ |y - v.exact h| ≤ A * v.eps := by
  cases v with
  | index L i =>
    refine ⟨h i, hf i hv.1 hv.2, ?_⟩
    show |h i - h i| ≤ A * 0
    rw [sub_self, abs_zero, mul_zero]
  | value a b L x =>
    obtain ⟨hs, hx, h0, h1⟩ := hv
    obtain ⟨i, w, hbr, hi0, hi1, hw0, hw1, hp, _⟩ := C176_bracket a b L hs x hx h0 h1
    obtain ⟨y, hy, _, he⟩ := combine_err (hb i) (hb (i + 1)) hA1 hw0 hw1
    refine ⟨y, ?_, ?_⟩
    · simp only [eval1, hbr]
      rw [hf i hi0 (by show i < L; omega), hf (i + 1) (by omega) hi1]
      exact hy
    · rw [← linear_cell h i hw0 hw1] at he
      have hl := linear_lip hb ((x - a) / (b - a) * ((L : ℚ) - 1)) (i + w)
      have hApos : 0 < A := (two_zpow_pos _).trans_le hA0
      have hη : 4 * (2 : ℚ) ^ (-1074 : ℤ) ≤ A * (1 / 9007199254740992) := by
        have e : 4 * (2 : ℚ) ^ (-1074 : ℤ) = 2 ^ (-1000 : ℤ) * 2 ^ (-72 : ℤ) := by
          rw [← two_zpow_add, show (4 : ℚ) = 2 ^ (2 : ℤ) by norm_num, ← two_zpow_add]
          norm_num
        rw [e]
        exact mul_le_mul hA0 (by norm_num) (two_zpow_pos _).le hApos.le
      have hL : (2 : ℚ) ≤ L := by exact_mod_cast hs.two
      show |y - linear h ((x - a) / (b - a) * ((L : ℚ) - 1))| ≤ A * (L * 2 ^ (-47 : ℤ))
      have hl2 : 2 * A * |(i : ℚ) + w - (x - a) / (b - a) * ((L : ℚ) - 1)| ≤ 2 * A * (L * 2 ^ (-49 : ℤ)) := mul_le_mul_of_nonneg_left hp (by linarith)
      rw [show (2 : ℚ) ^ (-49 : ℤ) = 16 / 9007199254740992 by norm_num] at hl2
      rw [show (2 : ℚ) ^ (-47 : ℤ) = 64 / 9007199254740992 by norm_num]
      have ht := abs_sub_le y (linear h (i + w)) (linear h ((x - a) / (b - a) * ((L : ℚ) - 1)))
      have hAL : A * 2 ≤ A * L := mul_le_mul_of_nonneg_left hL hApos.le
      generalize (2 : ℚ) ^ (-1074 : ℤ) = e at *
      linarith

/-- **C199**: inside of the meshes the evaluation of bounded data is finite, and it is the exact multilinear interpolation of all variables up to errors that multiply -/
theorem C199_product (vs : List Var) : ∀ {A : ℚ} {f : List ℤ → Option ℚ} {h : List ℤ → ℚ}, (∀ v ∈ vs, v.Good) → (2 : ℚ) ^ (-1000 : ℤ) ≤ A → A * growth vs ≤ 2 ^ (1010 : ℤ) →
    (∀ is, |h is| ≤ A) → (∀ is, InMesh vs is → f is = some (h is)) → ∃ y, evalAll vs f = some y ∧ |y - exactAll vs h| ≤ A * (growth vs - 1) := by
  induction vs with
  | nil =>
    intro A f h _ _ _ _ hf
    refine ⟨h [], hf [] rfl, ?_⟩
    simp [growth, exactAll]
  | cons v vs ih =>
    intro A f h hg hA0 hA1 hb hf
    have hv := hg v (List.mem_cons_self ..)
    have hgs : ∀ u ∈ vs, u.Good := fun u hu => hg u (List.mem_cons_of_mem _ hu)
    have hApos : 0 < A := (two_zpow_pos _).trans_le hA0
    have he := eps_nonneg hv
    have hgr : 1 ≤ growth vs := by
      unfold growth
      clear ih hA1 hf hg
      induction vs with
      | nil => simp
      | cons u us ihu =>
        rw [List.map_cons, List.prod_cons]
        have h1 := ihu fun w hw => hgs w (List.mem_cons_of_mem _ hw)
        have h2 := eps_nonneg (hgs u (List.mem_cons_self ..))
        exact one_le_mul_of_one_le_of_one_le (by linarith) h1
    have hge : growth (v :: vs) = (1 + v.eps) * growth vs := by unfold growth; rw [List.map_cons, List.prod_cons]
    rw [hge] at hA1 ⊢
    have hA1' : A * (1 + v.eps) * growth vs ≤ 2 ^ (1010 : ℤ) := by rw [mul_assoc]; exact hA1
    have hAe : A ≤ A * (1 + v.eps) := by nlinarith
    have hAg : A * (1 + v.eps) ≤ A * (1 + v.eps) * growth vs := le_mul_of_one_le_right (by linarith) hgr
    -- the first variable
    have h1 : ∀ ys, InMesh vs ys → ∃ y, eval1 v (fun y => f (y :: ys)) = some y ∧ |y - v.exact (fun y => h (y :: ys))| ≤ A * v.eps := by
      intro ys hys
      refine eval1_err' hv hA0 (by linarith) (fun i => hb (i :: ys)) ?_
      intro i i0 i1
      exact hf (i :: ys) ⟨i, ys, rfl, i0, i1, hys⟩
    classical
    let h' : List ℤ → ℚ := fun ys => if hys : InMesh vs ys then (h1 ys hys).choose else v.exact (fun y => h (y :: ys))
    have hd : ∀ ys, |h' ys - v.exact (fun y => h (y :: ys))| ≤ A * v.eps := by
      intro ys
      by_cases hys : InMesh vs ys
      · simp only [h', dif_pos hys]
        exact (h1 ys hys).choose_spec.2
      · simp only [h', dif_neg hys]
        rw [sub_self, abs_zero]
        positivity
    have hb' : ∀ ys, |h' ys| ≤ A * (1 + v.eps) := by
      intro ys
      have e1 := exact_bound v (fun i => hb (i :: ys))
      have e2 := abs_add_le (h' ys - v.exact (fun y => h (y :: ys))) (v.exact (fun y => h (y :: ys)))
      rw [sub_add_cancel] at e2
      linarith [hd ys]
    obtain ⟨y, hy, hye⟩ := ih (A := A * (1 + v.eps)) (f := fun ys => eval1 v (fun y => f (y :: ys))) (h := h') hgs (by linarith) hA1' hb' (by
      intro ys hys
      simp only [h', dif_pos hys]
      exact (h1 ys hys).choose_spec.1)
    refine ⟨y, hy, ?_⟩
    have hx := exactAll_diff vs hd
    show |y - exactAll vs (fun ys => v.exact (fun y => h (y :: ys)))| ≤ _
    have ht := abs_sub_le y (exactAll vs h') (exactAll vs (fun ys => v.exact (fun y => h (y :: ys))))
    have e : A * ((1 + v.eps) * growth vs - 1) = A * (1 + v.eps) * (growth vs - 1) + A * v.eps := by ring
    rw [e]
    linarith

/-- a variable whose argument is the value of the mesh point `i`, or its index; the interval contains zero -/
def Var.At (i : ℤ) : Var → Prop
  | .value a b L x => Scale a b L ∧ a ≤ 0 ∧ 0 ≤ b ∧ 0 ≤ i ∧ i < L ∧ toValue a b L i = some x
  | .index L j => i = j ∧ 0 ≤ j ∧ j < L

/-- the arguments are the mesh point `is` -/
def AtPoint : List Var → List ℤ → Prop
  | [], is => is = []
  | v :: vs, is => ∃ i js, is = i :: js ∧ v.At i ∧ AtPoint vs js

theorem At.good {v : Var} {i : ℤ} (h : v.At i) : v.Good := by
  cases v with
  | index L j => exact ⟨h.2.1, h.2.2⟩
  | value a b L x =>
    obtain ⟨hs, ha, hb, i0, i1, hx⟩ := h
    obtain ⟨u, w, hu, hw, _, k1, k2, k3⟩ := C176_order a b L hs.da hs.db ha hb hs.two i i i0 (le_refl _) i1
    rw [hx] at hu hw
    cases hu
    cases hw
    obtain ⟨z, hz, hd, _⟩ := C176_accuracy a b L hs i i0 i1
    rw [hx] at hz
    cases hz
    exact ⟨hs, hd, k1, k3⟩

theorem At.near {v : Var} {i : ℤ} (h : v.At i) {f : ℤ → ℚ} {A : ℚ} (hb : ∀ n, |f n| ≤ A) : |v.exact f - f i| ≤ A * v.eps := by
  have hA : 0 ≤ A := (abs_nonneg _).trans (hb 0)
  cases v with
  | index L j =>
    obtain ⟨rfl, _⟩ := h
    show |f i - f i| ≤ A * 0
    rw [sub_self, abs_zero, mul_zero]
  | value a b L x =>
    obtain ⟨hs, ha, hb0, i0, i1, hx⟩ := h
    obtain ⟨z, hz, _, he⟩ := C176_accuracy a b L hs i i0 i1
    rw [hx] at hz
    cases hz
    have hlt := hs.lt
    have hL : (2 : ℚ) ≤ L := by exact_mod_cast hs.two
    have hm : max |a| |b| ≤ b - a := by
      rw [abs_of_nonpos ha, abs_of_nonneg hb0]
      exact max_le (by linarith) (by linarith)
    have hpos : |(x - a) / (b - a) * ((L : ℚ) - 1) - i| ≤ L * 2 ^ (-50 : ℤ) := by
      have hn0 : (L : ℚ) - 1 ≠ 0 := by linarith
      have e : (x - a) / (b - a) * ((L : ℚ) - 1) - i = (x - point a b L i) * (((L : ℚ) - 1) / (b - a)) := by
        unfold point
        field_simp
        ring
      rw [e, abs_mul, abs_of_pos (div_pos (by linarith) hlt)]
      have h2 : |x - point a b L i| ≤ (b - a) * 2 ^ (-50 : ℤ) := he.trans (mul_le_mul_of_nonneg_right hm (two_zpow_pos _).le)
      calc |x - point a b L i| * (((L : ℚ) - 1) / (b - a)) ≤ ((b - a) * 2 ^ (-50 : ℤ)) * (((L : ℚ) - 1) / (b - a)) :=
            mul_le_mul_of_nonneg_right h2 (div_pos (by linarith) hlt).le
        _ = ((L : ℚ) - 1) * 2 ^ (-50 : ℤ) := by field_simp
        _ ≤ L * 2 ^ (-50 : ℤ) := mul_le_mul_of_nonneg_right (by linarith) (two_zpow_pos _).le
    have hl := linear_lip hb (i : ℚ) ((x - a) / (b - a) * ((L : ℚ) - 1))
    have hi : linear f (i : ℚ) = f i := by
      have := linear_cell f i (w := 0) le_rfl (by norm_num)
      rw [add_zero] at this
      rw [this]
      ring
    rw [hi] at hl
    refine hl.trans ?_
    show _ ≤ A * (L * 2 ^ (-47 : ℤ))
    have h3 := mul_le_mul_of_nonneg_left hpos (by linarith : 0 ≤ 2 * A)
    rw [show (2 : ℚ) ^ (-50 : ℤ) = 8 / 9007199254740992 by norm_num] at h3
    rw [show (2 : ℚ) ^ (-47 : ℤ) = 64 / 9007199254740992 by norm_num]
    have hAL : 0 ≤ A * L := mul_nonneg hA (by linarith)
    linarith

theorem exactAll_near (vs : List Var) : ∀ {is : List ℤ} {h : List ℤ → ℚ} {A : ℚ}, AtPoint vs is → (∀ js, |h js| ≤ A) → |exactAll vs h - h is| ≤ A * (vs.map Var.eps).sum := by
  induction vs with
  | nil =>
    intro is h A hp hb
    rw [show is = [] from hp]
    simp [exactAll]
  | cons v vs ih =>
    intro is h A hp hb
    obtain ⟨i, js, rfl, hi, hjs⟩ := hp
    have h1 := ih (h := fun ys => v.exact (fun y => h (y :: ys))) hjs (fun ys => exact_bound v fun y => hb (y :: ys))
    have h2 := At.near hi (f := fun y => h (y :: js)) (fun y => hb (y :: js))
    rw [List.map_cons, List.sum_cons, mul_add]
    have ht := abs_sub_le (exactAll vs (fun ys => v.exact (fun y => h (y :: ys)))) (v.exact (fun y => h (y :: js))) (h (i :: js))
    show |exactAll vs (fun ys => v.exact (fun y => h (y :: ys))) - h (i :: js)| ≤ _
    linarith

/-- **C199**: at the value of a mesh point the evaluation is the datum of the point up to an explicit error; if all arguments are indices it is the datum -/
theorem C199_points (vs : List Var) {is : List ℤ} {A : ℚ} {f : List ℤ → Option ℚ} {h : List ℤ → ℚ} (hp : AtPoint vs is) (hA0 : (2 : ℚ) ^ (-1000 : ℤ) ≤ A)
    (hA1 : A * growth vs ≤ 2 ^ (1010 : ℤ)) (hb : ∀ js, |h js| ≤ A) (hf : ∀ js, InMesh vs js → f js = some (h js)) :
    ∃ y, evalAll vs f = some y ∧ |y - h is| ≤ A * (growth vs - 1 + (vs.map Var.eps).sum) := by
  have hg : ∀ v ∈ vs, v.Good := by
    clear hA1 hf
    induction vs generalizing is with
    | nil => simp
    | cons v vs ih =>
      obtain ⟨i, js, _, hi, hjs⟩ := hp
      intro u hu
      rcases List.mem_cons.1 hu with rfl | hu
      · exact At.good hi
      · exact ih hjs u hu
  obtain ⟨y, hy, he⟩ := C199_product vs hg hA0 hA1 hb hf
  refine ⟨y, hy, ?_⟩
  have h1 := exactAll_near vs hp hb
  have ht := abs_sub_le y (exactAll vs h) (h is)
  rw [mul_add]
  linarith

/-- **C199**: the order of the variables does not matter for the exact interpolation of two variables, so it changes the result by rounding only -/
theorem C199_order (v w : Var) (h : ℤ → ℤ → ℚ) : v.exact (fun i => w.exact (fun j => h i j)) = w.exact (fun j => v.exact (fun i => h i j)) := by
  cases v <;> cases w <;> simp only [Var.exact, linear] <;> ring

/-- **C199**: rounding does occur: a constant function of two times is not evaluated to the constant, and the transposed function with the arguments exchanged is evaluated differently -/
theorem C199_rounding_witness : evalAll [.value 0 10 4 1, .value 0 10 4 1] (fun _ => some (rnd (1 / 10))) ≠ some (rnd (1 / 10)) ∧
    evalAll [.value 0 10 4 3, .value 0 10 4 5] (fun is => match is with | [i, j] => some (rnd (((i : ℚ) + 10 * j) / 10)) | _ => none) ≠
    evalAll [.value 0 10 4 5, .value 0 10 4 3] (fun is => match is with | [j, i] => some (rnd (((i : ℚ) + 10 * j) / 10)) | _ => none) := by decide +kernel

/-! ### Examples -/

/-- bilinear interpolation in the middle of a cell -/
example : evalAll [.value 0 2 3 (1 / 2), .value 0 4 5 (5 / 2)] (fun is => match is with
    | [i, j] => some ((i : ℚ) + 10 * j)
    | _ => none) = some (51 / 2) := by decide +kernel

/-- a time and an index -/
example : evalAll [.value 0 2 3 (1 / 2), .index 5 3] (fun is => match is with
    | [i, j] => if 0 ≤ i ∧ i < 3 ∧ 0 ≤ j ∧ j < 5 then some ((i : ℚ) + 10 * j) else none
    | _ => none) = some (61 / 2) ∧ evalAll [.value 0 2 3 3, .index 5 3] (fun _ => some 0) = none := by decide +kernel

/-- the hypotheses of the theorems hold for a function of two imaginary times -/
example : AtPoint [.value 0 10 1001 0, .index 7 3] [0, 3] := by
  refine ⟨0, [3], rfl, ⟨exScale, le_rfl, by norm_num, by norm_num, by norm_num, by decide +kernel⟩, 3, [], rfl, ⟨rfl, by norm_num, by norm_num⟩, rfl⟩

end Verif.ProductDouble
