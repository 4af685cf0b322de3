import Std.Data.String.ToNat
import Mathlib.Data.Real.Basic
import Mathlib.Tactic.Linarith
import Mathlib.Tactic.FieldSimp
import Mathlib.Tactic.Ring
import Mathlib.Tactic.NormNum

/-!
# Property C149: Green functions in text files

Source: `/repo/python/triqs/gf/tools.py` (120-175), the mesh: `/repo/c++/triqs/mesh/bases/linear.hpp` (154-160).

A file is the list of its rows: frequency, real part, imaginary part. `numpy.savetxt` writes 19 digits, so that numbers are read
as they were written. The real and imaginary parts are elements of a type `ρ`.

Simplifications: exact arithmetic for the frequencies; files contain rows of three numbers.
-/

namespace Verif.TxtFiles

/-! ## Model -/

variable {ρ : Type}

inductive Err where
  | value
  | type
  | index
deriving DecidableEq

/-- a matrix valued function of real frequencies -/
structure RGf (ρ : Type) where
  wmin : ℝ
  wmax : ℝ
  n : ℕ
  rows : ℕ
  cols : ℕ
  re : ℕ → ℕ → ℕ → ρ
  im : ℕ → ℕ → ℕ → ρ

/-- `to_value`, linear.hpp:154-160 -/
noncomputable def value (a b : ℝ) (n k : ℕ) : ℝ := if n = 1 then a else a * (1 - k / ((n : ℝ) - 1)) + b * (k / ((n : ℝ) - 1))

abbrev File (ρ : Type) := List (ℝ × ρ × ρ)

/-- the file of one element, tools.py:170-175 -/
noncomputable def writeFile (g : RGf ρ) (i j : ℕ) : File ρ := (List.range g.n).map fun (k : ℕ) => (value g.wmin g.wmax g.n k, g.re i j k, g.im i j k)

/-- its name, 171 -/
def fileName (name : String) (i j : ℕ) : String := name ++ "_" ++ toString i ++ "_" ++ toString j ++ ".dat"

/-- `np.min`, `np.max` -/
noncomputable def npMin : List ℝ → ℝ
  | [] => 0
  | x :: l => l.foldl min x
noncomputable def npMax : List ℝ → ℝ
  | [] => 0
  | x :: l => l.foldl max x

/-- one pass of the loop 149-151: `genfromtxt` gives an array without a second axis for less than two rows -/
def readOne (n N1 : ℕ) (f : File ρ) (j : ℕ) : Option Err :=
  if f.length < 2 then some .index else if N1 ≤ j then some .index else if f.length ≠ n then some .value else none

def readLoop (n N1 : ℕ) (files : ℕ → ℕ → File ρ) : List (ℕ × ℕ) → Option Err
  | [] => none
  | (i, j) :: l =>
    match readOne n N1 (files i j) j with
    | some e => some e
    | none => readLoop n N1 files l

/-- `read_gf_from_txt`, 145-152, for at least one file: the target has the shape `N1`, `N1` (148) -/
noncomputable def read [Zero ρ] (files : ℕ → ℕ → File ρ) (N1 N2 : ℕ) : Except Err (RGf ρ) :=
  let mesh := (files 0 0).map Prod.fst
  if mesh.length = 0 then .error .value
  else if mesh.length = 1 then .error .type
  else
    match readLoop mesh.length N1 files ((List.range N1).flatMap fun (i : ℕ) => (List.range N2).map fun (j : ℕ) => (i, j)) with
    | some e => .error e
    | none =>
      .ok ⟨npMin mesh, npMax mesh, mesh.length, N1, N1, fun i j k => if j < N2 then (((files i j)[k]?).map fun r => r.2.1).getD 0 else 0,
        fun i j k => if j < N2 then (((files i j)[k]?).map fun r => r.2.2).getD 0 else 0⟩

/-! ## Specification -/

/-- the same function -/
def Same (g r : RGf ρ) : Prop :=
  r.n = g.n ∧ r.rows = g.rows ∧ r.cols = g.cols ∧ (∀ k, k < g.n → value r.wmin r.wmax r.n k = value g.wmin g.wmax g.n k) ∧
    ∀ i j k, i < g.rows → j < g.cols → k < g.n → r.re i j k = g.re i j k ∧ r.im i j k = g.im i j k

/-! ## Proofs -/

theorem foldl_min_le (l : List ℝ) (x : ℝ) : l.foldl min x ≤ x ∧ ∀ y ∈ l, l.foldl min x ≤ y := by
  induction l generalizing x with
  | nil => simp
  | cons a l ih =>
    obtain ⟨h1, h2⟩ := ih (min x a)
    simp only [List.foldl_cons, List.mem_cons, forall_eq_or_imp]
    exact ⟨h1.trans (min_le_left _ _), h1.trans (min_le_right _ _), h2⟩

theorem foldl_min_mem (l : List ℝ) (x : ℝ) : l.foldl min x ∈ x :: l := by
  induction l generalizing x with
  | nil => simp
  | cons a l ih =>
    have := ih (min x a)
    simp only [List.foldl_cons, List.mem_cons] at this ⊢
    rcases this with h | h
    · rcases min_choice x a with h' | h' <;> rw [h, h'] <;> simp
    · exact Or.inr (Or.inr h)

theorem foldl_max_le (l : List ℝ) (x : ℝ) : x ≤ l.foldl max x ∧ ∀ y ∈ l, y ≤ l.foldl max x := by
  induction l generalizing x with
  | nil => simp
  | cons a l ih =>
    obtain ⟨h1, h2⟩ := ih (max x a)
    simp only [List.foldl_cons, List.mem_cons, forall_eq_or_imp]
    exact ⟨(le_max_left _ _).trans h1, (le_max_right _ _).trans h1, h2⟩

theorem foldl_max_mem (l : List ℝ) (x : ℝ) : l.foldl max x ∈ x :: l := by
  induction l generalizing x with
  | nil => simp
  | cons a l ih =>
    have := ih (max x a)
    simp only [List.foldl_cons, List.mem_cons] at this ⊢
    rcases this with h | h
    · rcases max_choice x a with h' | h' <;> rw [h, h'] <;> simp
    · exact Or.inr (Or.inr h)

theorem npMin_eq (l : List ℝ) (a : ℝ) (h1 : a ∈ l) (h2 : ∀ y ∈ l, a ≤ y) : npMin l = a := by
  cases l with
  | nil => simp at h1
  | cons x l =>
    have hle := foldl_min_le l x
    refine le_antisymm ?_ (h2 _ (foldl_min_mem l x))
    rcases List.mem_cons.mp h1 with rfl | h
    · exact hle.1
    · exact hle.2 a h

theorem npMax_eq (l : List ℝ) (a : ℝ) (h1 : a ∈ l) (h2 : ∀ y ∈ l, y ≤ a) : npMax l = a := by
  cases l with
  | nil => simp at h1
  | cons x l =>
    have hle := foldl_max_le l x
    refine le_antisymm (h2 _ (foldl_max_mem l x)) ?_
    rcases List.mem_cons.mp h1 with rfl | h
    · exact hle.1
    · exact hle.2 a h

theorem npMin_mem (l : List ℝ) (h : l ≠ []) : npMin l ∈ l ∧ ∀ y ∈ l, npMin l ≤ y := by
  cases l with
  | nil => exact absurd rfl h
  | cons x l =>
    refine ⟨foldl_min_mem l x, ?_⟩
    have := foldl_min_le l x
    simpa [npMin] using this

theorem npMax_mem (l : List ℝ) (h : l ≠ []) : npMax l ∈ l ∧ ∀ y ∈ l, y ≤ npMax l := by
  cases l with
  | nil => exact absurd rfl h
  | cons x l =>
    refine ⟨foldl_max_mem l x, ?_⟩
    have := foldl_max_le l x
    simpa [npMax] using this

theorem value_zero (a b : ℝ) (n : ℕ) : value a b n 0 = a := by
  unfold value
  split <;> simp

theorem value_last (a b : ℝ) (n : ℕ) (hn : 2 ≤ n) : value a b n (n - 1) = b := by
  have h : ((n - 1 : ℕ) : ℝ) = (n : ℝ) - 1 := by
    rw [Nat.cast_sub (by omega)]; simp
  have h0 : (n : ℝ) - 1 ≠ 0 := by
    have : (2 : ℝ) ≤ n := by exact_mod_cast hn
    linarith
  unfold value
  rw [if_neg (by omega), h, div_self h0]
  ring

theorem value_between (a b : ℝ) (hab : a ≤ b) (n k : ℕ) (hn : 2 ≤ n) (hk : k < n) : a ≤ value a b n k ∧ value a b n k ≤ b := by
  have h2 : (2 : ℝ) ≤ n := by exact_mod_cast hn
  have h0 : 0 < (n : ℝ) - 1 := by linarith
  have hk' : (k : ℝ) ≤ (n : ℝ) - 1 := by
    have : (k : ℝ) + 1 ≤ n := by exact_mod_cast hk
    linarith
  have t0 : 0 ≤ (k : ℝ) / ((n : ℝ) - 1) := div_nonneg (Nat.cast_nonneg k) h0.le
  have t1 : (k : ℝ) / ((n : ℝ) - 1) ≤ 1 := (div_le_one h0).mpr hk'
  unfold value
  rw [if_neg (by omega)]
  constructor
  · nlinarith
  · nlinarith

/-- a list of equally spaced increasing numbers is recovered from its smallest and largest number -/
theorem ends (a b : ℝ) (hab : a ≤ b) (n : ℕ) (hn : 2 ≤ n) :
    npMin ((List.range n).map fun (k : ℕ) => value a b n k) = a ∧ npMax ((List.range n).map fun (k : ℕ) => value a b n k) = b := by
  constructor
  · refine npMin_eq _ _ (List.mem_map.mpr ⟨0, List.mem_range.mpr (by omega), value_zero a b n⟩) fun y hy => ?_
    obtain ⟨k, hk, rfl⟩ := List.mem_map.mp hy
    exact (value_between a b hab n k hn (List.mem_range.mp hk)).1
  · refine npMax_eq _ _ (List.mem_map.mpr ⟨n - 1, List.mem_range.mpr (by omega), value_last a b n hn⟩) fun y hy => ?_
    obtain ⟨k, hk, rfl⟩ := List.mem_map.mp hy
    exact (value_between a b hab n k hn (List.mem_range.mp hk)).2

theorem loop_none (n N1 : ℕ) (files : ℕ → ℕ → File ρ) (l : List (ℕ × ℕ)) :
    readLoop n N1 files l = none ↔ ∀ p ∈ l, readOne n N1 (files p.1 p.2) p.2 = none := by
  induction l with
  | nil => simp [readLoop]
  | cons p l ih =>
    obtain ⟨i, j⟩ := p
    simp only [readLoop, List.mem_cons, forall_eq_or_imp]
    cases h : readOne n N1 (files i j) j with
    | none => simp [ih]
    | some e => simp

theorem pairs_mem (N1 N2 : ℕ) (p : ℕ × ℕ) :
    p ∈ ((List.range N1).flatMap fun (i : ℕ) => (List.range N2).map fun (j : ℕ) => (i, j)) ↔ p.1 < N1 ∧ p.2 < N2 := by
  obtain ⟨i, j⟩ := p
  simp only [List.mem_flatMap, List.mem_range, List.mem_map, Prod.mk.injEq]
  constructor
  · rintro ⟨a, ha, b, hb, rfl, rfl⟩; exact ⟨ha, hb⟩
  · rintro ⟨h1, h2⟩; exact ⟨i, h1, j, h2, rfl, rfl⟩

theorem read_ok [Zero ρ] (files : ℕ → ℕ → File ρ) (N1 N2 n : ℕ) (hn : 2 ≤ n) (h1 : 1 ≤ N1) (h2 : 1 ≤ N2) (h12 : N2 ≤ N1)
    (hf : ∀ i j, i < N1 → j < N2 → (files i j).length = n) :
    ∃ r, read files N1 N2 = .ok r ∧ r.wmin = npMin ((files 0 0).map Prod.fst) ∧ r.wmax = npMax ((files 0 0).map Prod.fst) ∧ r.n = n ∧
      r.rows = N1 ∧ r.cols = N1 ∧ ∀ i j k, r.re i j k = (if j < N2 then (((files i j)[k]?).map fun r => r.2.1).getD 0 else 0) ∧
        r.im i j k = (if j < N2 then (((files i j)[k]?).map fun r => r.2.2).getD 0 else 0) := by
  have hlen : ((files 0 0).map Prod.fst).length = n := by rw [List.length_map]; exact hf 0 0 (by omega) (by omega)
  have hloop : readLoop n N1 files ((List.range N1).flatMap fun (i : ℕ) => (List.range N2).map fun (j : ℕ) => (i, j)) = none := by
    rw [loop_none]
    intro p hp
    obtain ⟨hi, hj⟩ := (pairs_mem N1 N2 p).mp hp
    unfold readOne
    rw [hf _ _ hi hj, if_neg (by omega), if_neg (by omega), if_neg (by simp)]
  unfold read
  simp only
  rw [hlen, if_neg (by omega), if_neg (by omega), hloop]
  exact ⟨_, rfl, rfl, rfl, rfl, rfl, rfl, fun i j k => ⟨rfl, rfl⟩⟩

/-- writing and reading a square real-frequency function of at least two points gives it back -/
theorem C149_round_trip [Zero ρ] (g : RGf ρ) (hab : g.wmin ≤ g.wmax) (hn : 2 ≤ g.n) (hs : g.cols = g.rows) (hp : 1 ≤ g.rows) :
    ∃ r, read (writeFile g) g.rows g.cols = .ok r ∧ Same g r := by
  obtain ⟨r, hr, h1, h2, h3, h4, h5, h6⟩ := read_ok (writeFile g) g.rows g.cols g.n hn hp (by omega) (by omega)
    (fun i j _ _ => by simp [writeFile])
  have hcol : (writeFile g 0 0).map Prod.fst = (List.range g.n).map fun (k : ℕ) => value g.wmin g.wmax g.n k := by
    unfold writeFile
    rw [List.map_map]
    rfl
  obtain ⟨e1, e2⟩ := ends g.wmin g.wmax hab g.n hn
  rw [hcol, e1] at h1
  rw [hcol, e2] at h2
  refine ⟨r, hr, h3, h4, h5.trans hs.symm, fun k _ => by rw [h1, h2, h3], fun i j k _ hj hk => ?_⟩
  have hget : (writeFile g i j)[k]? = some (value g.wmin g.wmax g.n k, g.re i j k, g.im i j k) := by
    unfold writeFile
    rw [List.getElem?_map, List.getElem?_range hk]
    rfl
  rw [(h6 i j k).1, (h6 i j k).2, if_pos hj, if_pos hj, hget]
  exact ⟨rfl, rfl⟩

/-- the frequencies that are read are those of the file exactly if these are equally spaced and increasing -/
theorem C149_mesh [Zero ρ] (files : ℕ → ℕ → File ρ) (N1 N2 n : ℕ) (hn : 2 ≤ n) (h1 : 1 ≤ N1) (h2 : 1 ≤ N2) (h12 : N2 ≤ N1)
    (hf : ∀ i j, i < N1 → j < N2 → (files i j).length = n) :
    ∃ r, read files N1 N2 = .ok r ∧
      (((List.range n).map fun (k : ℕ) => value r.wmin r.wmax r.n k) = (files 0 0).map Prod.fst ↔
        ∃ a b, a ≤ b ∧ (files 0 0).map Prod.fst = (List.range n).map fun (k : ℕ) => value a b n k) := by
  obtain ⟨r, hr, e1, e2, e3, _⟩ := read_ok files N1 N2 n hn h1 h2 h12 hf
  refine ⟨r, hr, ?_⟩
  rw [e3]
  constructor
  · intro h
    refine ⟨r.wmin, r.wmax, ?_, h.symm⟩
    rw [e1, e2]
    have hne : (files 0 0).map Prod.fst ≠ [] := by
      intro h0
      have := congrArg List.length h0
      rw [List.length_map, hf 0 0 (by omega) (by omega)] at this
      simp at this
      omega
    exact (npMin_mem _ hne).2 _ (npMax_mem _ hne).1
  · rintro ⟨a, b, hab, h⟩
    obtain ⟨t1, t2⟩ := ends a b hab n hn
    rw [e1, e2, h, t1, t2]

/-- more columns than rows are refused; with fewer columns the missing ones are zero -/
theorem C149_rectangular [Zero ρ] (files : ℕ → ℕ → File ρ) (N1 N2 n : ℕ) (hn : 2 ≤ n) (h1 : 1 ≤ N1) (h2 : 1 ≤ N2)
    (hf : ∀ i j, (files i j).length = n) :
    (N1 < N2 → ∃ e, read files N1 N2 = .error e) ∧
      (N2 ≤ N1 → ∃ r, read files N1 N2 = .ok r ∧ r.rows = N1 ∧ r.cols = N1 ∧ ∀ i j k, N2 ≤ j → r.re i j k = 0 ∧ r.im i j k = 0) := by
  constructor
  · intro hlt
    have hlen : ((files 0 0).map Prod.fst).length = n := by rw [List.length_map]; exact hf 0 0
    unfold read
    simp only
    rw [hlen, if_neg (by omega), if_neg (by omega)]
    split
    · exact ⟨_, rfl⟩
    · rename_i hl
      have := (loop_none n N1 files _).mp hl (0, N1) ((pairs_mem N1 N2 (0, N1)).mpr ⟨by omega, hlt⟩)
      unfold readOne at this
      simp only at this
      rw [hf, if_neg (by omega), if_pos le_rfl] at this
      cases this
  · intro hle
    obtain ⟨r, hr, _, _, _, e4, e5, e6⟩ := read_ok files N1 N2 n hn h1 h2 hle (fun i j _ _ => hf i j)
    refine ⟨r, hr, e4, e5, fun i j k hj => ?_⟩
    rw [(e6 i j k).1, (e6 i j k).2, if_neg (by omega), if_neg (by omega)]
    exact ⟨rfl, rfl⟩

/-- a function of one point can be written but not read -/
theorem C149_one_point [Zero ρ] (g : RGf ρ) (hn : g.n = 1) : read (writeFile g) g.rows g.cols = .error .type := by
  unfold read
  simp [writeFile, hn]

/-- files with different numbers of rows are refused -/
theorem C149_lengths [Zero ρ] (files : ℕ → ℕ → File ρ) (N1 N2 i j : ℕ) (hi : i < N1) (hj : j < N2)
    (h : (files i j).length ≠ (files 0 0).length) : ∃ e, read files N1 N2 = .error e := by
  unfold read
  simp only
  split
  · exact ⟨_, rfl⟩
  · split
    · exact ⟨_, rfl⟩
    · split
      · exact ⟨_, rfl⟩
      · rename_i hl
        have := (loop_none _ N1 files _).mp hl (i, j) ((pairs_mem N1 N2 (i, j)).mpr ⟨hi, hj⟩)
        unfold readOne at this
        simp only at this
        split at this
        · cases this
        · split at this
          · cases this
          · rw [List.length_map, if_pos h] at this
            cases this

theorem append_sep {s s' d d' : List Char} {c : Char} (hd : c ∉ d) (hd' : c ∉ d') (h : s ++ c :: d = s' ++ c :: d') : s = s' ∧ d = d' := by
  rw [List.append_eq_append_iff] at h
  rcases h with ⟨t, h1, h2⟩ | ⟨t, h1, h2⟩
  · cases t with
    | nil => simp at h1 h2; exact ⟨h1.symm, h2⟩
    | cons x t =>
      simp only [List.cons_append, List.cons.injEq] at h2
      exact absurd (by rw [h2.2]; simp) hd
  · cases t with
    | nil => simp at h1 h2; exact ⟨h1, h2.symm⟩
    | cons x t =>
      simp only [List.cons_append, List.cons.injEq] at h2
      exact absurd (by rw [h2.2]; simp) hd'

theorem not_mem_digits (o : ℕ) : '_' ∉ (toString o).toList := by
  intro h
  have : (toString o).toList = Nat.toDigits 10 o := Nat.toList_repr
  rw [this] at h
  have := Nat.isDigit_of_mem_toDigits (by decide) (by decide) h
  exact absurd this (by decide)

/-- the files of different elements, and of functions with different names, have different names -/
theorem C149_names (name name' : String) (i j i' j' : ℕ) (h : fileName name i j = fileName name' i' j') : name = name' ∧ i = i' ∧ j = j' := by
  have h1 := congrArg String.toList h
  unfold fileName at h1
  simp only [String.toList_append] at h1
  have h2 := List.append_cancel_right h1
  have e : ("_" : String).toList = ['_'] := rfl
  rw [e] at h2
  have h3 : (name.toList ++ '_' :: (toString i).toList) ++ '_' :: (toString j).toList =
      (name'.toList ++ '_' :: (toString i').toList) ++ '_' :: (toString j').toList := by simpa using h2
  obtain ⟨h4, h5⟩ := append_sep (not_mem_digits j) (not_mem_digits j') h3
  obtain ⟨h6, h7⟩ := append_sep (not_mem_digits i) (not_mem_digits i') h4
  exact ⟨String.toList_injective h6, Nat.repr_injective (String.toList_injective h7), Nat.repr_injective (String.toList_injective h5)⟩

/-! ### Examples -/

/-- a file with decreasing frequencies: the value 7 stands at frequency 1 and is read at frequency 0 -/
theorem C149_decreasing : ∃ r : RGf ℤ, read (fun _ _ => [((1 : ℝ), (7 : ℤ), (0 : ℤ)), (0, 8, 0)]) 1 1 = .ok r ∧
    value r.wmin r.wmax r.n 0 = 0 ∧ r.re 0 0 0 = 7 := by
  obtain ⟨r, hr, h1, h2, h3, _, _, h6⟩ := read_ok (fun _ _ => [((1 : ℝ), (7 : ℤ), (0 : ℤ)), (0, 8, 0)]) 1 1 2 le_rfl le_rfl le_rfl le_rfl
    (fun _ _ _ _ => rfl)
  refine ⟨r, hr, ?_, ?_⟩
  · rw [h1, value_zero]
    simp [npMin]
  · rw [(h6 0 0 0).1]
    simp

example : fileName "up" 0 12 = "up_0_12.dat" := by decide +kernel

end Verif.TxtFiles
