import Verif.Lattice.TightBinding
import Mathlib.Data.List.GetD
import Mathlib.Tactic.Ring

/-!
# Property C142: tight-binding models read from wannier90

Sources: `/repo/python/triqs/lattice/utils.py` (78-214), `/repo/python/triqs/lattice/tight_binding.py`
(75-110), `/repo/c++/triqs/lattice/tight_binding.hpp` (`Verif.Lattice.TightBinding`).

Simplifications: the lines after the first three are lists of exact numbers; blank lines are left out. A line of the `.wout`
file is the answer to the three searches of lines 146-149 and its columns as numbers. Local terms have the shape of the matrices.
-/

namespace Verif.Wannier
open Complex Verif.TightBinding

/-! ## Model -/

inductive Err where
  | assertion
  | value
  | index
  | key
deriving DecidableEq

/-- `astype(int)`: rounds to zero -/
noncomputable def toInt (x : ℝ) : ℤ := if x < 0 then ⌈x⌉ else ⌊x⌋

/-- a hopping matrix and its lattice vector -/
abbrev Entry := List ℤ × (ℕ → ℕ → ℂ)

/-- `d[key] = value` of a Python dictionary: an existing key keeps its place -/
def insert (d : List Entry) (e : Entry) : List Entry :=
  if d.any (fun x => x.1 == e.1) then d.map (fun x => if x.1 == e.1 then e else x) else d ++ [e]

/-- `dat[r, a, b, c]` after the `reshape` of line 113 -/
def el (w : ℕ) (flat : List ℝ) (r a b c : ℕ) : ℝ := flat.getD (((r * w + a) * w + b) * 7 + c) 0

/-- `R[r]` and `hopp[r]`, lines 114-118 -/
noncomputable def entry (w : ℕ) (deg flat : List ℝ) (r : ℕ) : Entry :=
  ([toInt (el w flat r 0 0 0), toInt (el w flat r 0 0 1), toInt (el w flat r 0 0 2)],
    fun a b => ((el w flat r a b 5 : ℂ) + I * (el w flat r a b 6 : ℂ)) / (deg.getD r 0 : ℂ))

/-- `parse_hopping_from_wannier90_hr_dat`, lines 105-123, for the values `num_wann` and `nrpts` of lines 101 and 102 -/
noncomputable def parse (w nrpts : ℕ) (lines : List (List ℝ)) : Except Err (List Entry) :=
  let nlines := (nrpts + 14) / 15
  let deg := (lines.take nlines).flatten
  let rows := lines.drop nlines
  if deg.length ≠ nrpts then .error .assertion
  else if ∃ x ∈ rows, ∃ y ∈ rows, x.length ≠ y.length then .error .value
  else if rows.flatten.length ≠ nrpts * w * w * 7 then .error .value
  else if w = 0 then .error .index
  else .ok (((List.range nrpts).map (entry w deg rows.flatten)).foldl insert [])

/-- `extend_wannier90_to_spin`, lines 169-171: `np.kron(np.eye(2), v)` -/
noncomputable def extend (w : ℕ) (d : List Entry) : List Entry :=
  d.map fun e => (e.1, fun a b => if a / w = b / w then e.2 (a % w) (b % w) else 0)

/-- lines 207-208 -/
noncomputable def addLocal (loc : ℕ → ℕ → ℂ) (d : List Entry) : Except Err (List Entry) :=
  if d.any (fun x => x.1 == [0, 0, 0]) then .ok (d.map fun x => if x.1 == [0, 0, 0] then (x.1, fun a b => x.2 a b + loc a b) else x)
  else .error .key

/-- lines 211-213 and tight_binding.py:110: the members of the tight-binding Hamiltonian -/
def toTB (w : ℕ) (d : List Entry) : TB := ⟨3, w, d.map Prod.fst, d.map fun e => ⟨w, w, e.2⟩⟩

/-- `TB_from_wannier90`, lines 201-214 -/
noncomputable def fromWannier (w nrpts : ℕ) (lines : List (List ℝ)) (spin : Bool) (loc : Option (ℕ → ℕ → ℂ)) : Except Err TB := do
  let d ← parse w nrpts lines
  let d' := if spin then extend w d else d
  let w' := if spin then 2 * w else w
  match loc with
  | none => .ok (toTB w' d')
  | some l => do
    let d2 ← addLocal l d'
    .ok (toTB w' d2)

/-- a line of the `.wout` file: which of the three texts it contains, and its columns (the first is a name) -/
structure WLine where
  title : Bool
  ang : Bool
  bohr : Bool
  cols : List ℝ

inductive WErr where
  | unbound
  | notImplemented
  | io
  | data
deriving DecidableEq

/-- length of line 150 -/
noncomputable def bohrUnit : ℝ := 0.5291772105638411

/-- the loop of lines 145-153: the unit and the lines after the one found; `none`: no line found -/
noncomputable def search : List WLine → Except WErr (Option (ℝ × List WLine))
  | [] => .ok none
  | l :: ls =>
    if l.title then
      if l.ang then .ok (some (1, ls)) else if l.bohr then .ok (some (bohrUnit, ls)) else .error .notImplemented
    else search ls

/-- `parse_lattice_vectors_from_wannier90_wout`, lines 141-166; in an empty file `line` has no value at line 155 -/
noncomputable def vectors (lines : List WLine) : Except WErr (List (List ℝ)) :=
  if lines = [] then .error .unbound
  else match search lines with
    | .error e => .error e
    | .ok none => .error .io
    | .ok (some (unit, rest)) =>
      if ((rest.take 3).map fun l => l.cols).length ≠ 3 ∨ ∃ c ∈ (rest.take 3).map fun l => l.cols, c.length < 4 then .error .data
      else .ok (((rest.take 3).map fun l => l.cols).map fun c => [c.getD 1 0 * unit, c.getD 2 0 * unit, c.getD 3 0 * unit])

/-! ## Specification -/

/-- what wannier90 has computed for a lattice vector: the degeneracy and the matrix elements `<0 m|H|R n>` -/
structure Point where
  R : Fin 3 → ℤ
  deg : ℕ
  H : ℕ → ℕ → ℂ

/-- the lines of `seed_hr.dat` for a lattice vector: the first of the two orbitals changes fastest, as in
/repo/test/python/wannier_TB_test_hr.dat:13-30 -/
noncomputable def Point.rows (w : ℕ) (p : Point) : List (List ℝ) :=
  (List.range w).flatMap fun (n : ℕ) => (List.range w).map fun (m : ℕ) =>
    [(p.R 0 : ℝ), (p.R 1 : ℝ), (p.R 2 : ℝ), (m : ℝ) + 1, (n : ℝ) + 1, (p.H m n).re, (p.H m n).im]

/-- the Hamiltonian in momentum space, `H_mn(k) = Σ_R exp(2 π i k R) <0 m|H|R n> / deg` -/
noncomputable def blochHamiltonian (pts : List Point) (k : ℕ → ℝ) (m n : ℕ) : ℂ :=
  (pts.map fun p => exp (2 * I * Real.pi * (k 0 * p.R 0 + k 1 * p.R 1 + k 2 * p.R 2 : ℝ)) * (p.H m n / p.deg)).sum

/-! ## Proofs -/

theorem toInt_cast (n : ℤ) : toInt (n : ℝ) = n := by
  unfold toInt
  split
  · exact Int.ceil_intCast n
  · exact Int.floor_intCast n

theorem flatMap_get {α β : Type} (d : β) (d' : α) (L : ℕ) (f : α → List β) (l : List α) (hf : ∀ x ∈ l, (f x).length = L) (s i : ℕ) (hs : s < l.length)
    (hi : i < L) : (l.flatMap f).getD (s * L + i) d = (f (l.getD s d')).getD i d := by
  induction l generalizing s with
  | nil => simp at hs
  | cons a l ih =>
    have ha : (f a).length = L := hf a (by simp)
    rw [List.flatMap_cons]
    cases s with
    | zero => rw [zero_mul, zero_add, List.getD_append _ _ _ _ (by rw [ha]; exact hi)]; rfl
    | succ s =>
      rw [List.getD_append_right _ _ _ _ (by rw [ha]; nlinarith), ha, show (s + 1) * L + i - L = s * L + i by
        have : (s + 1) * L = s * L + L := by ring
        omega]
      rw [ih (fun x hx => hf x (by simp [hx])) s (by simpa using hs)]
      rfl

theorem flatMap_length {α β : Type} (L : ℕ) (f : α → List β) (l : List α) (hf : ∀ x ∈ l, (f x).length = L) : (l.flatMap f).length = l.length * L := by
  induction l with
  | nil => simp
  | cons a l ih =>
    rw [List.flatMap_cons, List.length_append, ih fun x hx => hf x (by simp [hx]), hf a (by simp)]
    simp
    ring

theorem flatten_flatMap {α β : Type} (f : α → List (List β)) (l : List α) : (l.flatMap f).flatten = l.flatMap fun x => (f x).flatten := by
  induction l with
  | nil => rfl
  | cons a l ih => rw [List.flatMap_cons, List.flatMap_cons, List.flatten_append, ih]

/-- one line -/
noncomputable def lineOf (p : Point) (n m : ℕ) : List ℝ :=
  [(p.R 0 : ℝ), (p.R 1 : ℝ), (p.R 2 : ℝ), (m : ℝ) + 1, (n : ℝ) + 1, (p.H m n).re, (p.H m n).im]

theorem rows_flatten (w : ℕ) (p : Point) : (p.rows w).flatten = (List.range w).flatMap fun n => (List.range w).flatMap fun m => lineOf p n m := by
  unfold Point.rows
  rw [flatten_flatMap]
  rfl

theorem inner_length (w : ℕ) (p : Point) (n : ℕ) : ((List.range w).flatMap fun m => lineOf p n m).length = w * 7 := by
  rw [flatMap_length 7 _ _ (fun _ _ => rfl), List.length_range]

theorem rows_length (w : ℕ) (p : Point) : (p.rows w).flatten.length = w * (w * 7) := by
  rw [rows_flatten, flatMap_length (w * 7) _ _ (fun _ _ => inner_length w p _), List.length_range]

theorem rows_get (w : ℕ) (p : Point) (a b c : ℕ) (ha : a < w) (hb : b < w) (hc : c < 7) :
    (p.rows w).flatten.getD (a * (w * 7) + (b * 7 + c)) 0 = (lineOf p a b).getD c 0 := by
  rw [rows_flatten, flatMap_get 0 0 (w * 7) _ _ (fun _ _ => inner_length w p _) a (b * 7 + c) (by simpa using ha) (by nlinarith)]
  have hg : ∀ i < w, (List.range w).getD i 0 = i := fun i hi => by rw [List.getD_eq_getElem _ _ (by simpa using hi), List.getElem_range]
  rw [hg a ha, flatMap_get 0 0 7 _ _ (fun _ _ => rfl) b c (by simpa using hb) hc, hg b hb]

theorem file_get (w : ℕ) (pts : List Point) (r a b c : ℕ) (hr : r < pts.length) (ha : a < w) (hb : b < w) (hc : c < 7) :
    el w (pts.flatMap (Point.rows w)).flatten r a b c = (lineOf (pts[r]) a b).getD c 0 := by
  unfold el
  rw [flatten_flatMap, show ((r * w + a) * w + b) * 7 + c = r * (w * (w * 7)) + (a * (w * 7) + (b * 7 + c)) by ring]
  rw [flatMap_get 0 ⟨0, 0, 0⟩ (w * (w * 7)) _ _ (fun p _ => rows_length w p) r _ hr]
  · rw [List.getD_eq_getElem _ _ hr, rows_get w _ a b c ha hb hc]
  · have : a * (w * 7) + (w * 7) ≤ w * (w * 7) := by
      have := Nat.mul_le_mul_right (w * 7) (show a + 1 ≤ w by omega)
      linarith
    nlinarith

theorem insert_foldl (l : List Entry) (d : List Entry) (h : (l.map Prod.fst).Nodup) (hd : ∀ e ∈ l, ∀ x ∈ d, x.1 ≠ e.1) : l.foldl insert d = d ++ l := by
  induction l generalizing d with
  | nil => simp
  | cons e l ih =>
    rw [List.map_cons, List.nodup_cons] at h
    have h1 : insert d e = d ++ [e] := by
      unfold insert
      rw [if_neg]
      simp only [Bool.not_eq_true, List.any_eq_false, beq_iff_eq]
      exact fun x hx => hd e (by simp) x hx
    rw [List.foldl_cons, h1, ih (d ++ [e]) h.2, List.append_assoc, List.singleton_append]
    intro e' he' x hx
    rw [List.mem_append, List.mem_singleton] at hx
    rcases hx with hx | rfl
    · exact hd e' (by simp [he']) x hx
    · intro hc
      exact h.1 (hc ▸ List.mem_map_of_mem he')

theorem list_range_sum (n : ℕ) (f : ℕ → ℂ) : ((List.range n).map f).sum = ∑ j ∈ Finset.range n, f j := by
  induction n with
  | zero => simp
  | succ n ih => rw [List.range_succ, List.map_append, List.sum_append, ih, Finset.sum_range_succ]; simp

/-- the list of a lattice vector -/
def Point.key (p : Point) : List ℤ := [p.R 0, p.R 1, p.R 2]

/-- **C142** reading a file of wannier90 gives for each lattice vector the *transpose* of the matrix in the file, divided by
the degeneracy -/
theorem C142_parse (w : ℕ) (hw : 0 < w) (pts : List Point) (hR : (pts.map Point.key).Nodup) (degLines : List (List ℝ))
    (hn : degLines.length = (pts.length + 14) / 15) (hdeg : degLines.flatten = pts.map fun p => (p.deg : ℝ)) :
    ∃ d, parse w pts.length (degLines ++ pts.flatMap (Point.rows w)) = .ok d ∧ d.length = pts.length ∧
      ∀ r (hr : r < pts.length), ∃ h, d[r]? = some ((pts[r]).key, h) ∧ ∀ a < w, ∀ b < w, h a b = (pts[r]).H b a / (pts[r]).deg := by
  have htake : (degLines ++ pts.flatMap (Point.rows w)).take ((pts.length + 14) / 15) = degLines := by
    rw [← hn, List.take_left']
    rfl
  have hdrop : (degLines ++ pts.flatMap (Point.rows w)).drop ((pts.length + 14) / 15) = pts.flatMap (Point.rows w) := by
    rw [← hn, List.drop_left']
    rfl
  have hent : ∀ r (hr : r < pts.length), (entry w degLines.flatten (pts.flatMap (Point.rows w)).flatten r).1 = (pts[r]).key ∧
      ∀ a < w, ∀ b < w, (entry w degLines.flatten (pts.flatMap (Point.rows w)).flatten r).2 a b = (pts[r]).H b a / (pts[r]).deg := by
    intro r hr
    constructor
    · simp only [entry]
      rw [file_get w pts r 0 0 0 hr hw hw (by norm_num), file_get w pts r 0 0 1 hr hw hw (by norm_num), file_get w pts r 0 0 2 hr hw hw (by norm_num)]
      simp only [lineOf, List.getD_cons_zero, List.getD_cons_succ, toInt_cast]
      rfl
    · intro a ha b hb
      simp only [entry]
      rw [file_get w pts r a b 5 hr ha hb (by norm_num), file_get w pts r a b 6 hr ha hb (by norm_num), hdeg]
      simp only [lineOf, List.getD_cons_zero, List.getD_cons_succ]
      rw [List.getD_eq_getElem _ _ (by simpa using hr), List.getElem_map]
      rw [mul_comm I, Complex.re_add_im]
      norm_cast
  have hkeys : (((List.range pts.length).map (entry w degLines.flatten (pts.flatMap (Point.rows w)).flatten)).map Prod.fst) = pts.map Point.key := by
    apply List.ext_getElem
    · simp
    · intro i h1 h2
      simp only [List.getElem_map, List.getElem_range]
      exact (hent i (by simpa using h2)).1
  refine ⟨(List.range pts.length).map (entry w degLines.flatten (pts.flatMap (Point.rows w)).flatten), ?_, by simp, ?_⟩
  · unfold parse
    simp only
    rw [htake, hdrop, if_neg (by rw [hdeg]; simp), if_neg, if_neg, if_neg (by omega), insert_foldl _ _ (by rw [hkeys]; exact hR) (by simp), List.nil_append]
    · rw [not_not, flatten_flatMap, flatMap_length (w * (w * 7)) _ _ (fun p _ => rows_length w p)]
      ring
    · rintro ⟨x, hx, y, hy, hxy⟩
      apply hxy
      have key : ∀ z ∈ pts.flatMap (Point.rows w), z.length = 7 := by
        intro z hz
        simp only [List.mem_flatMap, Point.rows, List.mem_map] at hz
        obtain ⟨p, _, n, _, m, _, rfl⟩ := hz
        rfl
      rw [key x hx, key y hy]
  · intro r hr
    refine ⟨_, ?_, (hent r hr).2⟩
    rw [List.getElem?_eq_getElem (by simpa using hr)]
    simp only [List.getElem_map, List.getElem_range, Option.some.injEq]
    exact Prod.ext (hent r hr).1 rfl

/-- the sum over the dictionary -/
noncomputable def dictSum (d : List Entry) (k : ℕ → ℝ) (a b : ℕ) : ℂ := (d.map fun e => exp (2 * I * Real.pi * dotk 3 k e.1) * e.2 a b).sum

theorem map_sum_range {α : Type} (d0 : α) (l : List α) (f : α → ℂ) : (l.map f).sum = ∑ j ∈ Finset.range l.length, f (l.getD j d0) := by
  rw [← list_range_sum]
  congr 1
  apply List.ext_getElem
  · simp
  · intro i h1 h2
    rw [List.getElem_map, List.getElem_map, List.getElem_range, List.getD_eq_getElem]

theorem toTB_fourier (w : ℕ) (d : List Entry) (hd : d ≠ []) (k : ℕ → ℝ) (a b : ℕ) : (toTB w d).fourier k a b = some (dictSum d k a b) := by
  have hl : 0 < d.length := List.length_pos_iff.mpr hd
  unfold TB.fourier dictSum
  have hl2 : (toTB w d).displ.length = d.length := by simp [toTB]
  rw [if_neg (by omega), hl2, map_sum_range ([], fun _ _ => 0)]
  congr 1
  apply Finset.sum_congr rfl
  intro j hj
  rw [Finset.mem_range] at hj
  rw [List.getD_eq_getElem _ _ hj]
  have e1 : (toTB w d).disp j = d[j].1 := by
    unfold TB.disp toTB
    rw [List.getD_eq_getElem _ _ (by simpa using hj), List.getElem_map]
  have e2 : ((toTB w d).mat j).e = d[j].2 := by
    unfold TB.mat toTB
    rw [List.getD_eq_getElem _ _ (by simpa using hj), List.getElem_map]
  rw [e1, e2]
  rfl

theorem dictSum_bloch (w : ℕ) (pts : List Point) (d : List Entry) (hl : d.length = pts.length)
    (h : ∀ r (hr : r < pts.length), ∃ h, d[r]? = some ((pts[r]).key, h) ∧ ∀ a < w, ∀ b < w, h a b = (pts[r]).H b a / (pts[r]).deg) (k : ℕ → ℝ) (a b : ℕ)
    (ha : a < w) (hb : b < w) : dictSum d k a b = blochHamiltonian pts k b a := by
  unfold dictSum blochHamiltonian
  rw [map_sum_range ([], fun _ _ => 0), map_sum_range (⟨0, 0, 0⟩ : Point), hl]
  apply Finset.sum_congr rfl
  intro j hj
  rw [Finset.mem_range] at hj
  obtain ⟨f, hj1, hj2⟩ := h j hj
  rw [List.getD_eq_getElem?_getD, hj1, Option.getD_some, List.getD_eq_getElem _ _ hj]
  simp only
  rw [hj2 a ha b hb]
  congr 3
  simp [dotk, Finset.sum_range_succ, Point.key]

/-- **C142** the Hamiltonian in momentum space is the transpose of the one of wannier90 -/
theorem C142_fourier (w : ℕ) (hw : 0 < w) (pts : List Point) (hne : pts ≠ []) (hR : (pts.map Point.key).Nodup) (degLines : List (List ℝ))
    (hn : degLines.length = (pts.length + 14) / 15) (hdeg : degLines.flatten = pts.map fun p => (p.deg : ℝ)) :
    ∃ t, fromWannier w pts.length (degLines ++ pts.flatMap (Point.rows w)) false none = .ok t ∧ t.norb = w ∧
      ∀ k, ∀ a < w, ∀ b < w, t.fourier k a b = some (blochHamiltonian pts k b a) := by
  obtain ⟨d, h1, h2, h3⟩ := C142_parse w hw pts hR degLines hn hdeg
  refine ⟨toTB w d, by unfold fromWannier; rw [h1]; rfl, rfl, ?_⟩
  intro k a ha b hb
  have hd : d ≠ [] := fun h => hne (List.eq_nil_of_length_eq_zero (by rw [← h2, h]; rfl))
  rw [toTB_fourier w d hd, dictSum_bloch w pts d h2 h3 k a b ha hb]

theorem dictSum_extend (w : ℕ) (d : List Entry) (k : ℕ → ℝ) (a b : ℕ) :
    dictSum (extend w d) k a b = if a / w = b / w then dictSum d k (a % w) (b % w) else 0 := by
  unfold dictSum extend
  rw [List.map_map]
  split
  · rename_i h
    congr 1
    apply List.map_congr_left
    intro e _
    simp [Function.comp, h]
  · rename_i h
    apply List.sum_eq_zero
    intro x hx
    rw [List.mem_map] at hx
    obtain ⟨e, _, rfl⟩ := hx
    simp [Function.comp, h]

/-- **C142** with spin the Hamiltonian consists of two equal blocks, the spin being the slow index -/
theorem C142_spin (w : ℕ) (hw : 0 < w) (pts : List Point) (hne : pts ≠ []) (hR : (pts.map Point.key).Nodup) (degLines : List (List ℝ))
    (hn : degLines.length = (pts.length + 14) / 15) (hdeg : degLines.flatten = pts.map fun p => (p.deg : ℝ)) :
    ∃ t, fromWannier w pts.length (degLines ++ pts.flatMap (Point.rows w)) true none = .ok t ∧ t.norb = 2 * w ∧
      ∀ k, ∀ s s' : ℕ, ∀ a < w, ∀ b < w, t.fourier k (s * w + a) (s' * w + b) = some (if s = s' then blochHamiltonian pts k b a else 0) := by
  obtain ⟨d, h1, h2, h3⟩ := C142_parse w hw pts hR degLines hn hdeg
  refine ⟨toTB (2 * w) (extend w d), by unfold fromWannier; rw [h1]; rfl, rfl, ?_⟩
  intro k s s' a ha b hb
  have hd : extend w d ≠ [] := fun h => hne (List.eq_nil_of_length_eq_zero (by
    rw [← h2]
    have := congrArg List.length h
    simpa [extend] using this))
  have e : ∀ s a : ℕ, a < w → (s * w + a) / w = s ∧ (s * w + a) % w = a := by
    intro s a ha
    constructor
    · rw [mul_comm, Nat.mul_add_div hw, Nat.div_eq_of_lt ha, add_zero]
    · rw [mul_comm, Nat.mul_add_mod, Nat.mod_eq_of_lt ha]
  rw [toTB_fourier _ _ hd, dictSum_extend, (e s a ha).1, (e s a ha).2, (e s' b hb).1, (e s' b hb).2, dictSum_bloch w pts d h2 h3 k a b ha hb]

theorem dictSum_addLocal (loc : ℕ → ℕ → ℂ) (d : List Entry) (hnd : (d.map Prod.fst).Nodup) (hz : [0, 0, 0] ∈ d.map Prod.fst) (k : ℕ → ℝ) (a b : ℕ) :
    dictSum (d.map fun x => if x.1 == [0, 0, 0] then (x.1, fun a b => x.2 a b + loc a b) else x) k a b = dictSum d k a b + loc a b := by
  have hzero : exp (2 * I * Real.pi * dotk 3 k [0, 0, 0]) = 1 := by simp [dotk, Finset.sum_range_succ]
  have hno : ∀ l : List Entry, [0, 0, 0] ∉ l.map Prod.fst →
      l.map (fun x => if x.1 == [0, 0, 0] then (x.1, fun a b => x.2 a b + loc a b) else x) = l := by
    intro l hl
    conv_rhs => rw [← List.map_id l]
    apply List.map_congr_left
    intro x hx
    rw [if_neg]
    · rfl
    · intro hc
      exact hl (by rw [beq_iff_eq] at hc; exact hc ▸ List.mem_map_of_mem hx)
  induction d with
  | nil => simp at hz
  | cons e d ih =>
    rw [List.map_cons, List.nodup_cons] at hnd
    by_cases he : e.1 = [0, 0, 0]
    · rw [List.map_cons, hno d (by rw [← he]; exact hnd.1)]
      unfold dictSum
      rw [List.map_cons, List.map_cons, List.sum_cons, List.sum_cons, if_pos (by rw [he]; rfl)]
      simp only [he, hzero]
      ring
    · have hz' : [0, 0, 0] ∈ d.map Prod.fst := by
        rw [List.map_cons, List.mem_cons] at hz
        exact hz.resolve_left (fun h => he h.symm)
      have := ih hnd.2 hz'
      unfold dictSum at this ⊢
      rw [List.map_cons, List.map_cons, List.sum_cons, this, if_neg (by simpa using he), List.map_cons, List.sum_cons]
      ring

/-- **C142** the local term is added as it is at all momenta, and is refused if the file has no vector zero -/
theorem C142_local (w : ℕ) (hw : 0 < w) (pts : List Point) (hR : (pts.map Point.key).Nodup) (degLines : List (List ℝ))
    (hn : degLines.length = (pts.length + 14) / 15) (hdeg : degLines.flatten = pts.map fun p => (p.deg : ℝ)) (loc : ℕ → ℕ → ℂ) :
    ([0, 0, 0] ∉ pts.map Point.key → fromWannier w pts.length (degLines ++ pts.flatMap (Point.rows w)) false (some loc) = .error .key) ∧
    ([0, 0, 0] ∈ pts.map Point.key → ∃ t, fromWannier w pts.length (degLines ++ pts.flatMap (Point.rows w)) false (some loc) = .ok t ∧ t.norb = w ∧
      ∀ k, ∀ a < w, ∀ b < w, t.fourier k a b = some (blochHamiltonian pts k b a + loc a b)) := by
  obtain ⟨d, h1, h2, h3⟩ := C142_parse w hw pts hR degLines hn hdeg
  have hk : d.map Prod.fst = pts.map Point.key := by
    apply List.ext_getElem
    · simp [h2]
    · intro i hi1 hi2
      obtain ⟨f, hf, _⟩ := h3 i (by simpa using hi2)
      rw [List.getElem?_eq_getElem (by simpa using hi1)] at hf
      rw [List.getElem_map, List.getElem_map, Option.some.inj hf]
  have hany : d.any (fun x => x.1 == [0, 0, 0]) = true ↔ [0, 0, 0] ∈ pts.map Point.key := by
    rw [← hk, List.any_eq_true, List.mem_map]
    constructor
    · rintro ⟨x, hx, hx2⟩; exact ⟨x, hx, by simpa using hx2⟩
    · rintro ⟨x, hx, hx2⟩; exact ⟨x, hx, by simpa using hx2⟩
  constructor
  · intro hz
    unfold fromWannier
    rw [h1]
    show (addLocal loc d >>= _) = _
    unfold addLocal
    rw [if_neg (fun h => hz (hany.mp h))]
    rfl
  · intro hz
    refine ⟨toTB w (d.map fun x => if x.1 == [0, 0, 0] then (x.1, fun a b => x.2 a b + loc a b) else x), ?_, rfl, ?_⟩
    · unfold fromWannier
      rw [h1]
      show (addLocal loc d >>= _) = _
      unfold addLocal
      rw [if_pos (hany.mpr hz)]
      rfl
    · intro k a ha b hb
      have hd : d ≠ [] := by
        rintro rfl
        rw [← hk] at hz
        simp at hz
      rw [toTB_fourier _ _ (by simpa using hd), dictSum_addLocal loc d (by rw [hk]; exact hR) (by rw [hk]; exact hz), dictSum_bloch w pts d h2 h3 k a b ha hb]

/-- **C142** a file with a wrong number of degeneracies or of matrix elements is refused -/
theorem C142_refused (w nrpts : ℕ) (lines : List (List ℝ)) (spin : Bool) (loc : Option (ℕ → ℕ → ℂ)) :
    (((lines.take ((nrpts + 14) / 15)).map List.length).sum ≠ nrpts → fromWannier w nrpts lines spin loc = .error .assertion) ∧
    (((lines.take ((nrpts + 14) / 15)).map List.length).sum = nrpts → ((lines.drop ((nrpts + 14) / 15)).map List.length).sum ≠ nrpts * w * w * 7 →
      fromWannier w nrpts lines spin loc = .error .value) := by
  constructor
  · intro h
    unfold fromWannier parse
    simp only
    rw [if_pos (by rw [List.length_flatten]; exact h)]
    rfl
  · intro h h2
    unfold fromWannier parse
    simp only
    rw [if_neg (by rw [List.length_flatten, h]; simp)]
    by_cases h3 : ∃ x ∈ lines.drop ((nrpts + 14) / 15), ∃ y ∈ lines.drop ((nrpts + 14) / 15), x.length ≠ y.length
    · rw [if_pos h3]; rfl
    · rw [if_neg h3, if_pos (by rw [List.length_flatten]; exact h2)]; rfl

theorem search_skip (pre : List WLine) (hpre : ∀ l ∈ pre, l.title = false) (ls : List WLine) : search (pre ++ ls) = search ls := by
  induction pre with
  | nil => rfl
  | cons l pre ih =>
    rw [List.cons_append, search, hpre l (by simp)]
    exact ih fun x hx => hpre x (by simp [hx])

/-- **C142** the lattice vectors are the numbers of the three lines after the first title, converted to Angstrom; a title without
a known unit, and a file without a title, are refused -/
theorem C142_vectors (pre post : List WLine) (hpre : ∀ l ∈ pre, l.title = false) (t r0 r1 r2 : WLine) (ht : t.title = true)
    (h0 : 4 ≤ r0.cols.length) (h1 : 4 ≤ r1.cols.length) (h2 : 4 ≤ r2.cols.length) :
    (t.ang = true → vectors (pre ++ t :: r0 :: r1 :: r2 :: post) =
      .ok ([r0, r1, r2].map fun r => [r.cols.getD 1 0, r.cols.getD 2 0, r.cols.getD 3 0])) ∧
    (t.ang = false → t.bohr = true → vectors (pre ++ t :: r0 :: r1 :: r2 :: post) =
      .ok ([r0, r1, r2].map fun r => [r.cols.getD 1 0 * 0.5291772105638411, r.cols.getD 2 0 * 0.5291772105638411, r.cols.getD 3 0 * 0.5291772105638411])) ∧
    (t.ang = false → t.bohr = false → vectors (pre ++ t :: r0 :: r1 :: r2 :: post) = .error .notImplemented) ∧
    (vectors pre = if pre = [] then .error .unbound else .error .io) := by
  have hne : ¬ pre ++ t :: r0 :: r1 :: r2 :: post = [] := by simp
  have hrows : ¬ (((r0 :: r1 :: r2 :: post).take 3).map (fun l : WLine => l.cols)).length ≠ 3 ∧
      ¬ ∃ c ∈ ((r0 :: r1 :: r2 :: post).take 3).map (fun l : WLine => l.cols), c.length < 4 := by
    constructor
    · simp
    · rintro ⟨c, hc, hc2⟩
      simp at hc
      rcases hc with rfl | rfl | rfl <;> omega
  refine ⟨fun ha => ?_, fun ha hb => ?_, fun ha hb => ?_, ?_⟩
  · have hs : search (pre ++ t :: r0 :: r1 :: r2 :: post) = .ok (some (1, r0 :: r1 :: r2 :: post)) := by
      rw [search_skip pre hpre, search, if_pos ht, if_pos ha]
    unfold vectors
    rw [if_neg hne, hs]
    simp only
    rw [if_neg (not_or.mpr hrows)]
    simp
  · have hs : search (pre ++ t :: r0 :: r1 :: r2 :: post) = .ok (some (bohrUnit, r0 :: r1 :: r2 :: post)) := by
      rw [search_skip pre hpre, search, if_pos ht, if_neg (by simp [ha]), if_pos hb]
    unfold vectors
    rw [if_neg hne, hs]
    simp only
    rw [if_neg (not_or.mpr hrows)]
    simp [bohrUnit]
  · have hs : search (pre ++ t :: r0 :: r1 :: r2 :: post) = .error .notImplemented := by
      rw [search_skip pre hpre, search, if_pos ht, if_neg (by simp [ha]), if_neg (by simp [hb])]
    unfold vectors
    rw [if_neg hne, hs]
  · have hs : search pre = .ok none := by
      have := search_skip pre hpre []
      rw [List.append_nil] at this
      rw [this]
      rfl
    unfold vectors
    rw [hs]

/-! ### Examples -/

/-- two orbitals and three lattice vectors; the hopping from orbital 1 to orbital 0 of the next cell is `i` -/
def chain : List Point :=
  [⟨![0, 0, 0], 1, fun _ _ => 0⟩, ⟨![1, 0, 0], 2, fun m n => if m = 0 ∧ n = 1 then I else 0⟩, ⟨![-1, 0, 0], 2, fun m n => if m = 1 ∧ n = 0 then -I else 0⟩]

/-- **C142** the Hamiltonian obtained is not the one of wannier90: at `k = 0`, the elements `(0, 1)` and `(1, 0)` are exchanged -/
theorem C142_transpose_witness : ∃ t, fromWannier 2 3 ([[1, 2, 2]] ++ chain.flatMap (Point.rows 2)) false none = .ok t ∧
    blochHamiltonian chain 0 0 1 = I / 2 ∧ t.fourier 0 0 1 = some (-I / 2) := by
  obtain ⟨t, h1, _, h3⟩ := C142_fourier 2 (by norm_num) chain (by simp [chain]) (by decide) [[1, 2, 2]] (by simp [chain]) (by simp [chain])
  refine ⟨t, h1, ?_, ?_⟩
  · simp [blochHamiltonian, chain]
  · rw [h3 0 0 (by norm_num) 1 (by norm_num)]
    simp [blochHamiltonian, chain]

/-- with spin: off-diagonal blocks vanish, the second block is the first -/
example : ∃ t, fromWannier 2 3 ([[1, 2, 2]] ++ chain.flatMap (Point.rows 2)) true none = .ok t ∧
    t.fourier 0 2 3 = some (-I / 2) ∧ t.fourier 0 0 3 = some 0 := by
  obtain ⟨t, h1, _, h3⟩ := C142_spin 2 (by norm_num) chain (by simp [chain]) (by decide) [[1, 2, 2]] (by simp [chain]) (by simp [chain])
  refine ⟨t, h1, ?_, ?_⟩
  · have := h3 0 1 1 0 (by norm_num) 1 (by norm_num)
    norm_num at this
    rw [this]
    simp [blochHamiltonian, chain]
  · have := h3 0 0 1 0 (by norm_num) 1 (by norm_num)
    norm_num at this
    exact this

/-- a local term -/
example : ∃ t, fromWannier 2 3 ([[1, 2, 2]] ++ chain.flatMap (Point.rows 2)) false (some fun a b => if a = 0 ∧ b = 1 then 5 else 0) = .ok t ∧
    t.fourier 0 0 1 = some (-I / 2 + 5) := by
  obtain ⟨t, h1, _, h3⟩ := (C142_local 2 (by norm_num) chain (by decide) [[1, 2, 2]] (by simp [chain]) (by simp [chain])
    (fun a b => if a = 0 ∧ b = 1 then 5 else 0)).2 (by decide)
  refine ⟨t, h1, ?_⟩
  rw [h3 0 0 (by norm_num) 1 (by norm_num)]
  simp [blochHamiltonian, chain]

/-- one degeneracy is missing -/
example : fromWannier 2 3 ([[1, 2]] ++ chain.flatMap (Point.rows 2)) false none = .error .assertion :=
  (C142_refused 2 3 _ false none).1 (by simp)

/-- a cubic lattice given in Bohr -/
example : vectors [⟨false, true, false, []⟩, ⟨true, false, true, []⟩, ⟨false, false, false, [0, 2, 0, 0]⟩, ⟨false, false, false, [0, 0, 2, 0]⟩,
    ⟨false, false, false, [0, 0, 0, 2]⟩] = .ok [[2 * 0.5291772105638411, 0, 0], [0, 2 * 0.5291772105638411, 0], [0, 0, 2 * 0.5291772105638411]] := by
  have := (C142_vectors [⟨false, true, false, []⟩] [] (by simp) ⟨true, false, true, []⟩ ⟨false, false, false, [0, 2, 0, 0]⟩
    ⟨false, false, false, [0, 0, 2, 0]⟩ ⟨false, false, false, [0, 0, 0, 2]⟩ rfl (by simp) (by simp) (by simp)).2.1 rfl rfl
  simpa using this

end Verif.Wannier
