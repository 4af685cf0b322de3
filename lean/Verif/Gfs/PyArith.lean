import Mathlib.Data.Complex.Basic
import Mathlib.Algebra.BigOperators.Ring.Finset
import Mathlib.Algebra.BigOperators.Group.Finset.Sigma
import Mathlib.Algebra.BigOperators.Group.List.Basic
import Mathlib.Tactic.Ring
import Mathlib.Tactic.NormNum
import Mathlib.Tactic.Linarith
import Mathlib.Tactic.FinCases

/-!
# Property C134: arithmetic of Green functions in Python

Sources: `/repo/python/triqs/gf/gf.py`, `/repo/python/triqs/gf/block_gf.py`.

A numpy array is its shape and its elements; an element is addressed by the list of its indices. The rules of numpy used
here: an array is assigned or added in place to another one if its shape, aligned at the end, agrees with the other shape up
to dimensions 1, whose element is repeated; `matmul` of stacks of matrices needs equal inner dimensions and an output of the
exact shape.

Simplifications: exact complex numbers; meshes are the values of a type `M` with decidable equality and `ms` their sizes;
lazy expressions, and adding a number or a matrix to a matrix-valued function (done in C++), are not modelled; the mesh of a
product is that of the first factor (for Matsubara times the statistic is changed, see `productStat`).
-/

namespace Verif.PyArith

/-! ## Model -/

structure Arr where
  shape : List ℕ
  el : List ℕ → ℂ

/-- numpy: can an array of shape `s` be broadcast to the shape `t` -/
def fits (s t : List ℕ) : Bool :=
  decide (s.length ≤ t.length) && (List.zipWith (fun a b => a == b || a == 1) s (t.drop (t.length - s.length))).all id

/-- the index of the element used for the index `idx` of the larger array -/
def pick (s : List ℕ) (idx : List ℕ) : List ℕ :=
  List.zipWith (fun d i => if d = 1 then 0 else i) s (idx.drop (idx.length - s.length))

inductive Err where
  | assertion
  | value
  | notImplemented
  | index
deriving DecidableEq

/-- `a[:] = b` -/
def assign (a b : Arr) : Except Err Arr := if fits b.shape a.shape then .ok ⟨a.shape, fun i => b.el (pick b.shape i)⟩ else .error .value

/-- `a += b`, `a -= b`, `a *= b` on arrays -/
def inplace (f : ℂ → ℂ → ℂ) (a b : Arr) : Except Err Arr :=
  if fits b.shape a.shape then .ok ⟨a.shape, fun i => f (a.el i) (b.el (pick b.shape i))⟩ else .error .value

/-- splits an index of a stack of matrices -/
def stack (idx : List ℕ) : List ℕ := idx.take (idx.length - 2)
def row (idx : List ℕ) : ℕ := idx.getD (idx.length - 2) 0
def col (idx : List ℕ) : ℕ := idx.getD (idx.length - 1) 0

/-- the elements of a product of stacks of matrices with the same stack shape -/
def mulEl (inner : ℕ) (a b : List ℕ → ℂ) (idx : List ℕ) : ℂ :=
  ∑ k ∈ Finset.range inner, a (stack idx ++ [row idx, k]) * b (stack idx ++ [k, col idx])

variable {M : Type} [DecidableEq M] (ms : M → List ℕ)

structure PyGf (M : Type) where
  mesh : M
  data : Arr

/-- `target_shape`, gf.py:160 -/
def PyGf.target (g : PyGf M) : List ℕ := g.data.shape.drop (ms g.mesh).length

/-- the invariant of the constructor, gf.py:144-149 -/
def PyGf.Valid (g : PyGf M) : Prop := g.data.shape = ms g.mesh ++ g.target ms

/-- `__iadd__` (gf.py:426-439) and `__isub__` (450-463) of another Green function -/
def iop (f : ℂ → ℂ → ℂ) (g h : PyGf M) : Except Err (PyGf M) :=
  if g.mesh ≠ h.mesh then .error .assertion else (inplace f g.data h.data).map (fun d => ⟨g.mesh, d⟩)

/-- the right operand of a product -/
inductive Operand (M : Type) where
  | gf (h : PyGf M)
  | number (c : ℂ)
  | array (A : Arr)

/-- `data[..., None, None]` -/
def expand (a : Arr) : Arr := ⟨a.shape ++ [1, 1], fun i => a.el (stack i)⟩

/-- `np.tensordot(data, A, axes=([-1],[-2]))`: contracts the last index of `data` with the first of the matrix `A` -/
def tensordotRight (a A : Arr) : Except Err Arr :=
  if a.shape.getLastD 0 ≠ A.shape.getD 0 0 then .error .value
  else .ok ⟨a.shape.dropLast ++ [A.shape.getD 1 0], fun i => mulEl (A.shape.getD 0 0) a.el (fun j => A.el [row j, col j]) i⟩

/-- `np.moveaxis(np.tensordot(A, data, axes=([-1],[-2])), 0, -2)` -/
def tensordotLeft (A a : Arr) : Except Err Arr :=
  if A.shape.getD 1 0 ≠ a.shape.getD (a.shape.length - 2) 0 then .error .value
  else .ok ⟨a.shape.take (a.shape.length - 2) ++ [A.shape.getD 0 0, a.shape.getLastD 0],
    fun i => mulEl (A.shape.getD 1 0) (fun j => A.el [row j, col j]) a.el i⟩

/-- `np.matmul(a, b, out=o)` for stacks of the same shape -/
def matmulOut (a b : Arr) (o : List ℕ) : Except Err Arr :=
  let m := a.shape.getLastD 0
  if m ≠ b.shape.getD (b.shape.length - 2) 0 then .error .value
  else if o ≠ a.shape.dropLast ++ [b.shape.getLastD 0] then .error .value
  else .ok ⟨o, mulEl m a.el b.el⟩

/-- `__imatmul__` and `__imul__`, gf.py:477-509 and 566-567 -/
def imul (g : PyGf M) : Operand M → Except Err (PyGf M)
  | .gf h =>
    if g.mesh ≠ h.mesh then .error .assertion
    else match (g.target ms).length, (h.target ms).length with
      | 2, 2 =>
        if (h.target ms).getD 0 0 = (h.target ms).getD 1 0 then .error .assertion
        else (matmulOut g.data h.data g.data.shape).map (fun d => ⟨g.mesh, d⟩)
      | 2, 0 => (inplace (· * ·) g.data (expand h.data)).map (fun d => ⟨g.mesh, d⟩)
      | 2, _ => .error .notImplemented
      | 0, 0 => (assign g.data ⟨g.data.shape, fun i => g.data.el i * h.data.el i⟩).map (fun d => ⟨g.mesh, d⟩)
      | 0, _ => .error .assertion
      | _, _ => .error .notImplemented
  | .number c => .ok ⟨g.mesh, ⟨g.data.shape, fun i => g.data.el i * c⟩⟩
  | .array A =>
    if A.shape.length ≠ 2 then .error .assertion
    else if (g.target ms).length ≠ 2 then .error .assertion
    else do
      let b ← tensordotRight g.data A
      let d ← assign g.data b
      .ok ⟨g.mesh, d⟩

/-- `__matmul__` and `__mul__`, gf.py:526-551 and 569-570, for equal meshes -/
def mul (g : PyGf M) : Operand M → Except Err (PyGf M)
  | .gf h =>
    if g.mesh ≠ h.mesh then .error .assertion
    else match (g.target ms).length, (h.target ms).length with
      | 2, 2 => (matmulOut g.data h.data (ms g.mesh ++ [(g.target ms).getD 0 0, (h.target ms).getD 1 0])).map (fun d => ⟨g.mesh, d⟩)
      | 0, 0 => .ok ⟨g.mesh, ⟨g.data.shape, fun i => g.data.el i * h.data.el i⟩⟩
      | 2, 0 => .ok ⟨g.mesh, ⟨g.data.shape, fun i => g.data.el i * h.data.el (stack i)⟩⟩
      | 0, 2 => .ok ⟨g.mesh, ⟨h.data.shape, fun i => g.data.el (stack i) * h.data.el i⟩⟩
      | _, _ => .error .notImplemented
  | x => imul ms g x

/-- `__rmatmul__` and `__rmul__` with a matrix on the left, gf.py:553-563 and 572-573 -/
def rmulArray (A : Arr) (g : PyGf M) : Except Err (PyGf M) :=
  if A.shape.length ≠ 2 then .error .assertion
  else if (g.target ms).length ≠ 2 then .error .assertion
  else do
    let b ← tensordotLeft A g.data
    let d ← assign g.data b
    .ok ⟨g.mesh, d⟩

/-- the statistic of the product of two functions of imaginary time, gf.py:524; `true` is a boson -/
def productStat (l r : Bool) : Bool := if l = r then true else false

/-! ### blocks -/

abbrev Blocks (M : Type) := List (String × PyGf M)

/-- `self[n]`, block_gf.py:271-276 -/
def Blocks.get (B : Blocks M) (n : String) : Except Err (PyGf M) :=
  match B.find? (fun p => p.1 == n) with
  | some p => .ok p.2
  | none => .error .index

/-- `BlockGf += BlockGf`, block_gf.py:306-308 (and 323-325): the blocks of the left operand -/
def biop (f : ℂ → ℂ → ℂ) (B C : Blocks M) : Except Err (Blocks M) :=
  B.mapM (fun p => do
    let h ← C.get p.1
    let g ← iop f p.2 h
    pure (p.1, g))

/-- `BlockGf * matrix`, block_gf.py:346-347 and 358-361 -/
def bmulArray (B : Blocks M) (A : Arr) : Except Err (Blocks M) :=
  B.mapM (fun p => do
    let g ← imul ms p.2 (.array A)
    pure (p.1, g))

/-- `matrix * BlockGf` is `__rmul__`, block_gf.py:363 -/
def brmulArray (A : Arr) (B : Blocks M) : Except Err (Blocks M) := bmulArray ms B A

/-! ## Specification -/

/-- the matrix of a matrix-valued function at the mesh index `b` -/
def PyGf.entry (g : PyGf M) (b : List ℕ) (i j : ℕ) : ℂ := g.data.el (b ++ [i, j])

/-- an index of an array -/
def InRange (s idx : List ℕ) : Prop := List.Forall₂ (fun i d => i < d) idx s

/-- a matrix-valued function with `n` rows and `m` columns -/
def IsMat (g : PyGf M) (n m : ℕ) : Prop := g.data.shape = ms g.mesh ++ [n, m]

/-! ## Proofs -/

theorem stack_app (b : List ℕ) (i j : ℕ) : stack (b ++ [i, j]) = b := by simp [stack]

theorem row_app (b : List ℕ) (i j : ℕ) : row (b ++ [i, j]) = i := by simp [row, List.getD_eq_getElem?_getD]

theorem col_app (b : List ℕ) (i j : ℕ) : col (b ++ [i, j]) = j := by simp [col, List.getD_eq_getElem?_getD]

theorem mulEl_app (n : ℕ) (a c : List ℕ → ℂ) (b : List ℕ) (i j : ℕ) :
    mulEl n a c (b ++ [i, j]) = ∑ k ∈ Finset.range n, a (b ++ [i, k]) * c (b ++ [k, j]) := by
  simp [mulEl, stack_app, row_app, col_app]

theorem target_mat {g : PyGf M} {n m : ℕ} (h : IsMat ms g n m) : g.target ms = [n, m] := by
  unfold PyGf.target; rw [h]; simp

theorem zipWith_self_all (s : List ℕ) : (List.zipWith (fun a b => a == b || a == 1) s s).all id = true := by
  induction s with
  | nil => rfl
  | cons a s ih => simp

theorem fits_self (s : List ℕ) : fits s s = true := by
  simp [fits]

theorem pick_self {s idx : List ℕ} (h : InRange s idx) : pick s idx = idx := by
  have hl : idx.length = s.length := h.length_eq
  unfold pick
  rw [hl, Nat.sub_self, List.drop_zero]
  induction h with
  | nil => rfl
  | cons hd _ ih => 
    rename_i i d l1 l2 _
    simp only [List.zipWith_cons_cons]
    rw [ih (by simpa using hl)]
    congr 1
    split <;> omega

theorem fits_app (p s t : List ℕ) (h : s.length = t.length) :
    fits (p ++ s) (p ++ t) = (List.zipWith (fun a b => a == b || a == 1) s t).all id := by
  simp only [fits, List.length_append, h, le_refl, decide_true, Bool.true_and, Nat.sub_self, List.drop_zero]
  rw [List.zipWith_append (by rfl), List.all_append, zipWith_self_all, Bool.true_and]

theorem pick_app (p s b t : List ℕ) (hb : InRange p b) (h : s.length = t.length) :
    pick (p ++ s) (b ++ t) = b ++ List.zipWith (fun d i => if d = 1 then 0 else i) s t := by
  have hl : b.length = p.length := hb.length_eq
  have h1 := pick_self hb
  unfold pick at h1 ⊢
  rw [hl, Nat.sub_self, List.drop_zero] at h1
  simp only [List.length_append, h, hl, Nat.sub_self, List.drop_zero]
  rw [List.zipWith_append hl.symm, h1]

theorem ok_map {α β : Type} {f : α → β} {x : Except Err α} {r : β} :
    x.map f = .ok r ↔ ∃ a, x = .ok a ∧ f a = r := by
  cases x <;> simp [Except.map]

/-- C134: two Green functions of the same mesh and target shape are added, or subtracted, element by element. -/
theorem C134_add (f : ℂ → ℂ → ℂ) (g h : PyGf M) (hm : g.mesh = h.mesh) (hs : g.data.shape = h.data.shape) :
    ∃ r, iop f g h = .ok r ∧ r.mesh = g.mesh ∧ r.data.shape = g.data.shape ∧
      ∀ idx, InRange g.data.shape idx → r.data.el idx = f (g.data.el idx) (h.data.el idx) := by
  refine ⟨⟨g.mesh, ⟨g.data.shape, fun i => f (g.data.el i) (h.data.el (pick h.data.shape i))⟩⟩, ?_, rfl, rfl, ?_⟩
  · simp [iop, inplace, hm, hs, fits_self, Except.map]
  · intro idx hi
    show f _ _ = _
    rw [pick_self (hs ▸ hi)]

/-- C134: the target shapes are not compared: a sum of matrix-valued functions is accepted as soon as each dimension of the
second one is that of the first one or 1, and fails otherwise. -/
theorem C134_add_iff (f : ℂ → ℂ → ℂ) (g h : PyGf M) {n m p q : ℕ} (hg : IsMat ms g n m) (hh : IsMat ms h p q) :
    (∃ r, iop f g h = .ok r) ↔ g.mesh = h.mesh ∧ (p = n ∨ p = 1) ∧ (q = m ∨ q = 1) := by
  unfold iop
  by_cases hm : g.mesh = h.mesh
  · simp only [hm, ne_eq, not_true_eq_false, if_false, true_and]
    simp only [ok_map]
    unfold inplace
    rw [hg, hh, hm, fits_app _ _ _ (by rfl)]
    by_cases hc : (p = n ∨ p = 1) ∧ (q = m ∨ q = 1)
    · rw [if_pos (by simpa using hc)]; simp [hc]
    · rw [if_neg (by simpa using hc)]; simp [hc]
  · simp [hm]

/-- C134: what such a sum is: the indices of the dimensions 1 are dropped, so one element is added to a whole row or
column. -/
theorem C134_add_value (f : ℂ → ℂ → ℂ) (g h : PyGf M) {n m p q : ℕ} (hg : IsMat ms g n m) (hh : IsMat ms h p q) (r : PyGf M)
    (hr : iop f g h = .ok r) (b : List ℕ) (hb : InRange (ms g.mesh) b) (i j : ℕ) :
    r.entry b i j = f (g.entry b i j) (h.entry b (if p = 1 then 0 else i) (if q = 1 then 0 else j)) := by
  have hm := ((C134_add_iff ms f g h hg hh).1 ⟨r, hr⟩).1
  unfold iop at hr
  rw [if_neg (by simpa using hm), ok_map] at hr
  obtain ⟨d, hd, rfl⟩ := hr
  unfold inplace at hd
  split at hd
  · cases hd
    show f _ _ = f _ _
    rw [hh, ← hm, pick_app _ _ _ _ hb (by rfl)]
    rfl
  · cases hd

/-- C134: a scalar-valued function on a mesh of `N` points is added to a matrix-valued one on this mesh if there are `N`
columns, and then the column number is used as the number of the mesh point. -/
theorem C134_add_scalar (f : ℂ → ℂ → ℂ) (g h : PyGf M) {N n m : ℕ} (hms : ms g.mesh = [N]) (hN : N ≠ 1) (hg : IsMat ms g n m)
    (hm : g.mesh = h.mesh) (hh : h.data.shape = ms h.mesh) :
    ((∃ r, iop f g h = .ok r) ↔ N = m) ∧
      ∀ r, iop f g h = .ok r → ∀ w i j, r.entry [w] i j = f (g.entry [w] i j) (h.data.el [j]) := by
  have hg' : g.data.shape = [N, n, m] := by rw [hg, hms]; rfl
  have hh' : h.data.shape = [N] := by rw [hh, ← hm, hms]
  have e : iop f g h = if N = m then .ok ⟨g.mesh, ⟨g.data.shape, fun i => f (g.data.el i) (h.data.el (pick h.data.shape i))⟩⟩ else .error .value := by
    unfold iop inplace
    simp only [hm, ne_eq, not_true_eq_false, if_false]
    have : fits h.data.shape g.data.shape = decide (N = m) := by
      rw [hh', hg']
      simp only [fits]
      by_cases hc : N = m <;> simp [hc, hN]
    rw [this]
    by_cases hc : N = m <;> simp [hc, Except.map]
  rw [e]
  constructor
  · by_cases hc : N = m <;> simp [hc]
  · intro r hr w i j
    by_cases hc : N = m
    · rw [if_pos hc] at hr
      cases hr
      show f _ _ = f _ _
      rw [hh']
      simp [pick, hN, PyGf.entry]
    · rw [if_neg hc] at hr; cases hr

theorem getD_mat (b : List ℕ) (i j : ℕ) : (b ++ [i, j]).getD ((b ++ [i, j]).length - 2) 0 = i := row_app b i j

theorem last_mat (b : List ℕ) (i j : ℕ) : (b ++ [i, j]).getLastD 0 = j := by simp [List.getLastD_eq_getLast?]

theorem dropLast_mat (b : List ℕ) (i j : ℕ) : (b ++ [i, j]).dropLast = b ++ [i] := by
  rw [show b ++ [i, j] = (b ++ [i]) ++ [j] by simp, List.dropLast_concat]

theorem take_mat (b : List ℕ) (i j : ℕ) : (b ++ [i, j]).take ((b ++ [i, j]).length - 2) = b := stack_app b i j

/-- C134: the product in place of two matrix-valued functions fails for every pair of them. -/
theorem C134_inplace_never (g h : PyGf M) {n m p q : ℕ} (hg : IsMat ms g n m) (hh : IsMat ms h p q) :
    ∃ e, imul ms g (.gf h) = .error e := by
  unfold imul
  by_cases hm : g.mesh = h.mesh
  · simp only [hm, ne_eq, not_true_eq_false, if_false, target_mat ms hg, target_mat ms hh, List.length_cons, List.length_nil]
    by_cases hs : p = q
    · exact ⟨.assertion, by simp [hs]⟩
    · refine ⟨.value, ?_⟩
      simp only [List.getD_cons_zero, List.getD_cons_succ, hs, if_false]
      unfold matmulOut
      rw [hg, hh, hm]
      simp only [getD_mat, last_mat, dropLast_mat]
      by_cases h1 : m = p
      · have : ¬ m = q := fun h2 => hs (h1.symm.trans h2)
        simp [h1, hs, Except.map]
      · simp [h1, Except.map]
  · exact ⟨.assertion, by simp [hm]⟩

/-- C134: the product of matrix-valued functions exists if and only if the meshes and the inner dimensions agree. -/
theorem C134_mul_iff (g h : PyGf M) {n m p q : ℕ} (hg : IsMat ms g n m) (hh : IsMat ms h p q) :
    (∃ r, mul ms g (.gf h) = .ok r) ↔ g.mesh = h.mesh ∧ m = p := by
  unfold mul
  by_cases hm : g.mesh = h.mesh
  · simp only [hm, ne_eq, not_true_eq_false, if_false, target_mat ms hg, target_mat ms hh, List.length_cons, List.length_nil, ok_map]
    unfold matmulOut
    rw [hg, hh, hm]
    simp only [getD_mat, last_mat, dropLast_mat]
    by_cases h1 : m = p
    · simp [h1]
    · simp [h1]
  · simp [hm]

/-- C134: the product is the product of the matrices at each point of the mesh. -/
theorem C134_mul (g h : PyGf M) {n m q : ℕ} (hg : IsMat ms g n m) (hh : IsMat ms h m q) (hm : g.mesh = h.mesh) :
    ∃ r, mul ms g (.gf h) = .ok r ∧ r.mesh = g.mesh ∧ IsMat ms r n q ∧
      ∀ b i j, r.entry b i j = ∑ k ∈ Finset.range m, g.entry b i k * h.entry b k j := by
  refine ⟨⟨g.mesh, ⟨ms g.mesh ++ [n, q], mulEl m g.data.el h.data.el⟩⟩, ?_, rfl, rfl, ?_⟩
  · unfold mul
    simp only [hm, ne_eq, not_true_eq_false, if_false, target_mat ms hg, target_mat ms hh, List.length_cons, List.length_nil]
    unfold matmulOut
    rw [hg, hh, hm]
    simp only [getD_mat, last_mat, dropLast_mat]
    simp [Except.map]
  · intro b i j
    exact mulEl_app m _ _ b i j

/-- C134: products of matrix-valued functions are associative. -/
theorem C134_assoc (g h k : PyGf M) {a b c d : ℕ} (hg : IsMat ms g a b) (hh : IsMat ms h b c) (hk : IsMat ms k c d)
    (h1 : g.mesh = h.mesh) (h2 : h.mesh = k.mesh) :
    ∃ gh hk' x y, mul ms g (.gf h) = .ok gh ∧ mul ms h (.gf k) = .ok hk' ∧ mul ms gh (.gf k) = .ok x ∧
      mul ms g (.gf hk') = .ok y ∧ x.mesh = y.mesh ∧ x.data.shape = y.data.shape ∧ ∀ w i j, x.entry w i j = y.entry w i j := by
  obtain ⟨gh, e1, m1, s1, v1⟩ := C134_mul ms g h hg hh h1
  obtain ⟨hk', e2, m2, s2, v2⟩ := C134_mul ms h k hh hk h2
  obtain ⟨x, e3, m3, s3, v3⟩ := C134_mul ms gh k s1 hk (m1.trans (h1.trans h2))
  obtain ⟨y, e4, m4, s4, v4⟩ := C134_mul ms g hk' hg s2 (h1.trans m2.symm)
  refine ⟨gh, hk', x, y, e1, e2, e3, e4, by rw [m3, m1, m4], by rw [s3, s4, m3, m1, m4], ?_⟩
  intro w i j
  rw [v3, v4]
  simp only [v1, v2, Finset.sum_mul, Finset.mul_sum]
  rw [Finset.sum_comm]
  refine Finset.sum_congr rfl fun k1 _ => Finset.sum_congr rfl fun k2 _ => by ring

/-- C134: a scalar-valued factor multiplies the matrices, on either side and in place with the same result. -/
theorem C134_scalar (g h : PyGf M) {n m : ℕ} (hg : IsMat ms g n m) (hh : h.data.shape = ms h.mesh) (hm : g.mesh = h.mesh) :
    ∃ r r' r'', mul ms g (.gf h) = .ok r ∧ mul ms h (.gf g) = .ok r' ∧ imul ms g (.gf h) = .ok r'' ∧
      IsMat ms r n m ∧ IsMat ms r' n m ∧ IsMat ms r'' n m ∧
      ∀ b i j, InRange (ms g.mesh) b → i < n → j < m →
        r.entry b i j = g.entry b i j * h.data.el b ∧ r'.entry b i j = g.entry b i j * h.data.el b ∧
          r''.entry b i j = g.entry b i j * h.data.el b := by
  have ht : h.target ms = [] := by unfold PyGf.target; rw [hh]; simp
  refine ⟨⟨g.mesh, ⟨g.data.shape, fun i => g.data.el i * h.data.el (stack i)⟩⟩,
    ⟨h.mesh, ⟨g.data.shape, fun i => h.data.el (stack i) * g.data.el i⟩⟩,
    ⟨g.mesh, ⟨g.data.shape, fun i => g.data.el i * (expand h.data).el (pick (expand h.data).shape i)⟩⟩, ?_, ?_, ?_, hg, ?_, hg, ?_⟩
  · simp [mul, hm, target_mat ms hg, ht]
  · simp [mul, hm, target_mat ms hg, ht]
  · have hf : fits (expand h.data).shape g.data.shape = true := by
      simp only [expand]
      rw [hh, hg, ← hm, fits_app _ _ _ (by rfl)]
      simp
    simp only [imul, hm, ne_eq, not_true_eq_false, if_false, target_mat ms hg, ht, List.length_cons, List.length_nil, inplace, hf, if_true,
      Except.map]
  · exact hm ▸ hg
  · intro b i j hb hi hj
    refine ⟨?_, ?_, ?_⟩
    · simp only [PyGf.entry, stack_app]
    · simp only [PyGf.entry, stack_app]; ring
    · simp only [PyGf.entry, expand]
      rw [hh, ← hm, pick_app _ _ _ _ hb (by rfl)]
      simp only [List.zipWith_cons_cons, List.zipWith_nil_left, stack_app]

/-- C134: the product with a matrix on the right: accepted if the inner dimensions agree and the matrix is square *or has a
single column*. -/
theorem C134_right_iff (g : PyGf M) {n m p q : ℕ} (hg : IsMat ms g n m) (A : Arr) (hA : A.shape = [p, q]) :
    (∃ r, mul ms g (.array A) = .ok r) ↔ p = m ∧ (q = m ∨ q = 1) := by
  show (∃ r, imul ms g (.array A) = .ok r) ↔ _
  unfold imul
  simp only [hA, List.length_cons, List.length_nil, target_mat ms hg]
  unfold tensordotRight
  rw [hg, hA]
  simp only [last_mat, dropLast_mat, List.getD_cons_zero, List.getD_cons_succ]
  by_cases h1 : m = p
  · simp only [h1, ne_eq, not_true_eq_false, if_false, true_and, bind, Except.bind, assign]
    rw [hg, show (ms g.mesh ++ [n] ++ [q]) = ms g.mesh ++ [n, q] by simp, fits_app _ _ _ (by rfl)]
    by_cases hc : q = m ∨ q = 1
    · rw [if_pos (by simpa using hc)]; subst h1; simp [hc]
    · rw [if_neg (by simpa using hc)]; subst h1; simp [hc]
  · simp [h1, Ne.symm h1, bind, Except.bind]

/-- C134: the value of the product with a matrix on the right: the matrix product for a square matrix; for a single column
every column of the result is the product with this column. -/
theorem C134_right (g : PyGf M) {n m q : ℕ} (hg : IsMat ms g n m) (A : Arr) (hA : A.shape = [m, q]) (r : PyGf M)
    (hr : mul ms g (.array A) = .ok r) (b : List ℕ) (hb : InRange (ms g.mesh) b) (i j : ℕ) (hi : i < n) :
    r.mesh = g.mesh ∧ IsMat ms r n m ∧
      r.entry b i j = ∑ k ∈ Finset.range m, g.entry b i k * A.el [k, if q = 1 then 0 else j] := by
  replace hr : imul ms g (.array A) = .ok r := hr
  unfold imul at hr
  simp only [hA, List.length_cons, List.length_nil, target_mat ms hg] at hr
  unfold tensordotRight at hr
  rw [hg, hA] at hr
  simp only [last_mat, dropLast_mat, List.getD_cons_zero, List.getD_cons_succ, bind, Except.bind, assign,
    ne_eq, not_true_eq_false, if_false] at hr
  split at hr
  · cases hr
  · rename_i d hd
    split at hd
    · cases hd
      cases hr
      refine ⟨rfl, hg, ?_⟩
      simp only [PyGf.entry]
      rw [show (ms g.mesh ++ [n] ++ [q]) = ms g.mesh ++ [n, q] by simp, pick_app _ _ _ _ hb (by rfl)]
      simp only [List.zipWith_cons_cons, List.zipWith_nil_left]
      have hi' : (if n = 1 then 0 else i) = i := by split <;> omega
      rw [hi', mulEl_app]
      refine Finset.sum_congr rfl fun k _ => ?_
      rw [row_app, col_app]
    · cases hd

/-- C134: the product with a matrix on the left: accepted if the inner dimensions agree and the matrix is square *or has a
single row*. -/
theorem C134_left_iff (g : PyGf M) {n m p q : ℕ} (hg : IsMat ms g n m) (A : Arr) (hA : A.shape = [p, q]) :
    (∃ r, rmulArray ms A g = .ok r) ↔ q = n ∧ (p = n ∨ p = 1) := by
  unfold rmulArray
  simp only [hA, List.length_cons, List.length_nil, target_mat ms hg]
  unfold tensordotLeft
  rw [hg, hA]
  simp only [last_mat, take_mat, getD_mat, List.getD_cons_zero, List.getD_cons_succ]
  by_cases h1 : q = n
  · simp only [h1, ne_eq, not_true_eq_false, if_false, true_and, bind, Except.bind, assign]
    rw [hg, fits_app _ _ _ (by rfl)]
    by_cases hc : p = n ∨ p = 1
    · rw [if_pos (by simpa using hc)]; simp [hc]
    · rw [if_neg (by simpa using hc)]; simp [hc]
  · simp [h1, bind, Except.bind]

/-- C134: the value of the product with a matrix on the left. -/
theorem C134_left (g : PyGf M) {n m p : ℕ} (hg : IsMat ms g n m) (A : Arr) (hA : A.shape = [p, n]) (r : PyGf M)
    (hr : rmulArray ms A g = .ok r) (b : List ℕ) (hb : InRange (ms g.mesh) b) (i j : ℕ) (hj : j < m) :
    r.mesh = g.mesh ∧ IsMat ms r n m ∧
      r.entry b i j = ∑ k ∈ Finset.range n, A.el [if p = 1 then 0 else i, k] * g.entry b k j := by
  unfold rmulArray at hr
  simp only [hA, List.length_cons, List.length_nil, target_mat ms hg] at hr
  unfold tensordotLeft at hr
  rw [hg, hA] at hr
  simp only [last_mat, take_mat, getD_mat, List.getD_cons_zero, List.getD_cons_succ, bind, Except.bind, assign,
    ne_eq, not_true_eq_false, if_false] at hr
  split at hr
  · cases hr
  · rename_i d hd
    split at hd
    · cases hd
      cases hr
      refine ⟨rfl, hg, ?_⟩
      simp only [PyGf.entry]
      rw [pick_app _ _ _ _ hb (by rfl)]
      simp only [List.zipWith_cons_cons, List.zipWith_nil_left]
      have hj' : (if m = 1 then 0 else j) = j := by split <;> omega
      rw [hj', mulEl_app]
      refine Finset.sum_congr rfl fun k _ => ?_
      rw [row_app, col_app]
    · cases hd

/-! ### blocks -/

theorem mapM_ok {α β : Type} (f : α → Except Err β) (l : List α) (r : List β) :
    l.mapM f = .ok r ↔ List.Forall₂ (fun a b => f a = .ok b) l r := by
  induction l generalizing r with
  | nil => simp [pure, Except.pure, eq_comm]
  | cons a l ih =>
    rw [List.mapM_cons]
    cases hfa : f a with
    | error e => simp [bind, Except.bind, List.forall₂_cons_left_iff, hfa]
    | ok b =>
      simp only [bind, Except.bind]
      cases hl : l.mapM f with
      | error e =>
        simp only [List.forall₂_cons_left_iff, hfa, reduceCtorEq, false_iff]
        rintro ⟨b', l', -, h2, -⟩
        rw [← ih, hl] at h2
        cases h2
      | ok r' =>
        simp only [pure, Except.pure, List.forall₂_cons_left_iff, hfa, Except.ok.injEq]
        constructor
        · rintro rfl
          exact ⟨b, r', rfl, (ih r').1 hl, rfl⟩
        · rintro ⟨b', l', rfl, h2, rfl⟩
          rw [← ih, hl] at h2
          cases h2
          rfl

/-- C134: a sum of block functions, if there is one, has the blocks of the first operand under their names; each is the sum
with the block of the second operand of the same name. -/
theorem C134_blocks (f : ℂ → ℂ → ℂ) (B C R : Blocks M) :
    biop f B C = .ok R ↔
      List.Forall₂ (fun p r => r.1 = p.1 ∧ ∃ h, C.get p.1 = .ok h ∧ iop f p.2 h = .ok r.2) B R := by
  unfold biop
  rw [mapM_ok]
  refine iff_of_eq (congrArg (fun P => List.Forall₂ P B R) ?_)
  funext p r
  obtain ⟨rn, rg⟩ := r
  apply propext
  simp only [bind, Except.bind, pure, Except.pure]
  cases hC : C.get p.1 with
  | error e => simp
  | ok h =>
    cases hi : iop f p.2 h with
    | error e => simp [hi]
    | ok g =>
      simp only [Except.ok.injEq, Prod.mk.injEq, exists_eq_left', hi]
      exact ⟨fun h => ⟨h.1.symm, h.2⟩, fun h => ⟨h.1.symm, h.2⟩⟩

/-- C134: blocks of the second operand that the first one does not have are left out without an error. -/
theorem C134_blocks_extra (f : ℂ → ℂ → ℂ) (B C E : Blocks M) (hE : ∀ p ∈ B, ∀ x ∈ E, x.1 ≠ p.1) :
    biop f B (C ++ E) = biop f B C := by
  unfold biop
  have : ∀ p ∈ B, (C ++ E).get p.1 = C.get p.1 := by
    intro p hp
    unfold Blocks.get
    rw [List.find?_append]
    have : E.find? (fun x => x.1 == p.1) = none := by
      rw [List.find?_eq_none]
      intro x hx
      simpa using hE p hp x hx
    rw [this, Option.or_none]
  induction B with
  | nil => rfl
  | cons p B ih =>
    rw [List.mapM_cons, List.mapM_cons, this p (by simp), ih (fun q hq => hE q (by simp [hq])) (fun q hq => this q (by simp [hq]))]

/-- C134: the statistics of a product of two functions of imaginary time: the signs under a shift by `β` multiply. -/
theorem C134_statistic (l r : Bool) :
    (if productStat l r then (1 : ℤ) else -1) = (if l then 1 else -1) * (if r then 1 else -1) := by
  cases l <;> cases r <;> rfl

/-! ### Examples -/

/-- a mesh is its number of points -/
abbrev ms1 : ℕ → List ℕ := fun N => [N]

/-- a constant matrix-valued function -/
def cst (N n m : ℕ) (A : ℕ → ℕ → ℂ) : PyGf ℕ := ⟨N, ⟨[N, n, m], fun i => A (row i) (col i)⟩⟩

def mat (n m : ℕ) (A : ℕ → ℕ → ℂ) : Arr := ⟨[n, m], fun i => A (i.getD 0 0) (i.getD 1 0)⟩

theorem cst_isMat (N n m : ℕ) (A : ℕ → ℕ → ℂ) : IsMat ms1 (cst N n m A) n m := rfl

theorem cst_entry (N n m : ℕ) (A : ℕ → ℕ → ℂ) (b : List ℕ) (i j : ℕ) : (cst N n m A).entry b i j = A i j := by
  simp [cst, PyGf.entry, row_app, col_app]

/-- a 1×1 function added to a 2×2 one: its element is added to the off-diagonal elements too -/
theorem C134_broadcast_witness : ∃ r, iop (· + ·) (cst 5 2 2 fun i j => if i = j then 1 else 0) (cst 5 1 1 fun _ _ => 3) = .ok r ∧
    r.entry [2] 0 1 = 3 := by
  obtain ⟨r, hr⟩ := (C134_add_iff ms1 (· + ·) (cst 5 2 2 fun i j => if i = j then 1 else 0) (cst 5 1 1 fun _ _ => 3)
    (cst_isMat ..) (cst_isMat ..)).2 ⟨rfl, Or.inr rfl, Or.inr rfl⟩
  refine ⟨r, hr, ?_⟩
  rw [C134_add_value ms1 _ _ _ (cst_isMat ..) (cst_isMat ..) r hr [2] (List.Forall₂.cons (by norm_num [cst]) .nil) 0 1, cst_entry, cst_entry]
  norm_num

/-- the other order fails -/
example : ¬ ∃ r, iop (· + ·) (cst 5 1 1 fun _ _ => 3) (cst 5 2 2 fun i j => if i = j then 1 else 0) = .ok r := by
  rw [C134_add_iff ms1 _ _ _ (cst_isMat ..) (cst_isMat ..)]
  simp

/-- a 3-point scalar function is added to a 3×3 function, and not to a 2×2 function -/
example : (∃ r, iop (· + ·) (cst 3 3 3 fun _ _ => 1) ⟨3, ⟨[3], fun i => (i.getD 0 0 : ℕ)⟩⟩ = .ok r ∧ r.entry [0] 0 2 = 3) ∧
    ¬ ∃ r, iop (· + ·) (cst 3 2 2 fun _ _ => 1) ⟨3, ⟨[3], fun i => (i.getD 0 0 : ℕ)⟩⟩ = .ok r := by
  constructor
  · obtain ⟨h1, h2⟩ := C134_add_scalar ms1 (· + ·) (cst 3 3 3 fun _ _ => 1) ⟨3, ⟨[3], fun i => (i.getD 0 0 : ℕ)⟩⟩
      (N := 3) rfl (by norm_num) (cst_isMat ..) rfl rfl
    obtain ⟨r, hr⟩ := h1.2 rfl
    refine ⟨r, hr, ?_⟩
    rw [h2 r hr, cst_entry]
    norm_num
  · rw [(C134_add_scalar ms1 (· + ·) (cst 3 2 2 fun _ _ => 1) ⟨3, ⟨[3], fun i => (i.getD 0 0 : ℕ)⟩⟩
      (N := 3) rfl (by norm_num) (cst_isMat ..) rfl rfl).1]
    norm_num

/-- `G1 *= G2` of two 2×2 functions on the same mesh fails, `G1 * G2` does not -/
example : (∃ e, imul ms1 (cst 4 2 2 fun i j => i + j) (.gf (cst 4 2 2 fun i _ => i)) = .error e) ∧
    ∃ r, mul ms1 (cst 4 2 2 fun i j => i + j) (.gf (cst 4 2 2 fun i _ => i)) = .ok r ∧ r.entry [1] 1 0 = 2 := by
  refine ⟨C134_inplace_never ms1 _ _ (cst_isMat ..) (cst_isMat ..), ?_⟩
  obtain ⟨r, h1, -, -, h2⟩ := C134_mul ms1 (cst 4 2 2 fun i j => i + j) (cst 4 2 2 fun i _ => i) (cst_isMat ..) (cst_isMat ..) rfl
  refine ⟨r, h1, ?_⟩
  rw [h2]
  simp only [cst_entry, Finset.sum_range_succ, Finset.sum_range_zero]
  norm_num

/-- rectangular factors -/
example : ∃ gh hk x y, mul ms1 (cst 4 1 2 fun _ j => j) (.gf (cst 4 2 3 fun i j => i * j)) = .ok gh ∧
    mul ms1 (cst 4 2 3 fun i j => i * j) (.gf (cst 4 3 1 fun i _ => i)) = .ok hk ∧
    mul ms1 gh (.gf (cst 4 3 1 fun i _ => i)) = .ok x ∧ mul ms1 (cst 4 1 2 fun _ j => j) (.gf hk) = .ok y ∧
      x.entry [3] 0 0 = y.entry [3] 0 0 := by
  obtain ⟨gh, hk, x, y, h1, h2, h3, h4, -, -, h5⟩ := C134_assoc ms1 (cst 4 1 2 fun _ j => j) (cst 4 2 3 fun i j => i * j)
    (cst 4 3 1 fun i _ => i) (cst_isMat ..) (cst_isMat ..) (cst_isMat ..) rfl rfl
  exact ⟨gh, hk, x, y, h1, h2, h3, h4, h5 ..⟩

/-- rectangular functions are multiplied by square matrices only, or by a single column -/
example : (∃ r, mul ms1 (cst 4 2 3 fun _ _ => 1) (.array (mat 3 3 fun _ _ => 1)) = .ok r) ∧
    (∃ r, mul ms1 (cst 4 2 3 fun _ _ => 1) (.array (mat 3 1 fun _ _ => 1)) = .ok r) ∧
    ¬ ∃ r, mul ms1 (cst 4 2 3 fun _ _ => 1) (.array (mat 3 2 fun _ _ => 1)) = .ok r := by
  refine ⟨(C134_right_iff ms1 _ (cst_isMat ..) _ rfl).2 (by simp), (C134_right_iff ms1 _ (cst_isMat ..) _ rfl).2 (by simp), ?_⟩
  rw [C134_right_iff ms1 _ (cst_isMat ..) _ rfl]
  simp

/-- C134: a matrix on the left of a block function multiplies from the right: for the same block the two functions differ. -/
theorem C134_block_left_witness : ∃ (A : Arr) (g r r' : PyGf ℕ),
    brmulArray ms1 A [("up", g)] = .ok [("up", r)] ∧ rmulArray ms1 A g = .ok r' ∧ r.entry [0] 0 0 ≠ r'.entry [0] 0 0 := by
  let A := mat 2 2 fun i j => if i = 0 ∧ j = 1 then 1 else 0
  let g := cst 4 2 2 fun i j => if i = 1 ∧ j = 0 then 1 else 0
  obtain ⟨r, hr⟩ := (C134_right_iff ms1 g (cst_isMat ..) A (p := 2) (q := 2) rfl).2 (by simp)
  obtain ⟨r', hr'⟩ := (C134_left_iff ms1 g (cst_isMat ..) A (p := 2) (q := 2) rfl).2 (by simp)
  refine ⟨A, g, r, r', ?_, hr', ?_⟩
  · have : imul ms1 g (.array A) = .ok r := hr
    simp only [brmulArray, bmulArray]
    rw [mapM_ok]
    refine List.Forall₂.cons ?_ .nil
    simp only [this, bind, Except.bind, pure, Except.pure]
  · have hb : InRange (ms1 g.mesh) [0] := List.Forall₂.cons (by norm_num [g, cst]) .nil
    rw [(C134_right ms1 g (cst_isMat ..) A rfl r hr [0] hb 0 0 (by norm_num)).2.2,
      (C134_left ms1 g (cst_isMat ..) A rfl r' hr' [0] hb 0 0 (by norm_num)).2.2]
    simp only [g, cst_entry, A, mat, Finset.sum_range_succ, Finset.sum_range_zero]
    norm_num

/-- the block `down` of the second operand is left out; it is an error in the other order -/
example : (∃ R, biop (· + ·) [("up", cst 2 1 1 fun _ _ => 1)] [("up", cst 2 1 1 fun _ _ => 2), ("down", cst 2 1 1 fun _ _ => 3)] = .ok R) ∧
    biop (· + ·) [("up", cst 2 1 1 fun _ _ => 2), ("down", cst 2 1 1 fun _ _ => 3)] [("up", cst 2 1 1 fun _ _ => 1)] = .error .index := by
  constructor
  · obtain ⟨r, hr, -⟩ := C134_add (· + ·) (cst 2 1 1 fun _ _ => 1) (cst 2 1 1 fun _ _ => 2) rfl rfl
    exact ⟨[("up", r)], (C134_blocks ..).2 (.cons ⟨rfl, _, rfl, hr⟩ .nil)⟩
  · rfl

end Verif.PyArith
