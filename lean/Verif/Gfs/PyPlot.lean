import Std.Data.String.ToNat
import Mathlib.Data.List.Sections
import Mathlib.Data.List.Nodup
import Mathlib.Data.List.Lex
import Mathlib.Order.Basic
import Mathlib.Data.Rat.Floor
import Mathlib.Tactic.Linarith
import Mathlib.Tactic.FieldSimp
import Mathlib.Tactic.NormNum

/-!
# Property C150: the data of plots

Source: `/repo/python/triqs/plot/protocol.py` (28-82), `/repo/python/triqs/gf/plot/plot_base.py` (59-97),
`/repo/python/triqs/gf/gf.py`: `x_data_view` (774-784).

Simplifications: numbers are ordered (no NaN); the further options of a plot are not modelled; complex numbers are pairs. In
`arange` (protocol.py:69) arithmetic is exact.
-/

namespace Verif.PyPlot

/-! ## Model -/

section Clip

variable {α : Type} [LinearOrder α]

inductive Err where
  | assertion
  | value
  | type
  | index
  | zeroDivision
deriving DecidableEq

/-- `clip_array` for an array, protocol.py:37-50: the limits of the slice -/
def clip (x : List α) (lo hi : α) : Except Err (ℕ × ℕ) :=
  if ¬ lo ≤ hi then .error .assertion
  else
    match x.findIdx? fun (v : α) => !decide (v < lo) with
    | none => .ok (0, 0)
    | some low =>
      match x.findIdx? fun (v : α) => decide (hi < v) with
      | some high => .ok (low, high)
      | none => .ok (low, x.length)

/-- the same for a generator: the first search has consumed `low + 1` values, `enumerate` counts again from zero (45), and a
generator has no length (48) -/
def clipGen (x : List α) (lo hi : α) : Except Err (ℕ × ℕ) :=
  if ¬ lo ≤ hi then .error .assertion
  else
    match x.findIdx? fun (v : α) => !decide (v < lo) with
    | none => .ok (0, 0)
    | some low =>
      match (x.drop (low + 1)).findIdx? fun (v : α) => decide (hi < v) with
      | some high => .ok (low, high)
      | none => .error .type

/-- `x[low:high]` -/
def slice {β : Type} (x : List β) (s : ℕ × ℕ) : List β := (x.take s.2).drop s.1

end Clip

section Base

variable {ρ : Type} [LinearOrder ρ]

/-- one curve: label, `xdata`, `ydata` -/
structure Curve (ρ : Type) where
  label : String
  x : List ρ
  y : List ρ

/-- a Green function: shape of the target, values by index and mesh point, whether the array is real -/
structure PlotGf (ρ : Type) where
  shape : List ℕ
  isReal : Bool
  n : ℕ
  re : List ℕ → ℕ → ρ
  im : List ℕ → ℕ → ρ

/-- `itertools.product`: the last index runs fastest -/
def product : List (List ℕ) → List (List ℕ)
  | [] => [[]]
  | l :: ls => l.flatMap fun (a : ℕ) => (product ls).map fun (t : List ℕ) => a :: t

/-- the indices in the order of 69: `product` of the reversed ranges, each tuple reversed (70-71) -/
def indices (shape : List ℕ) : List (List ℕ) := (product (shape.reverse.map List.range)).map List.reverse

/-- 70 -/
def label (pre name : String) (ind : List ℕ) : String := pre ++ name ++ " " ++ "_".intercalate (ind.map fun (i : ℕ) => toString i)

/-- `mdic`, 67-76: `f` is applied to the values -/
def mdic (g : PlotGf ρ) (name : String) (X : List ρ) (sl : ℕ × ℕ) (pre : String) (f : ρ × ρ → ρ) : List (Curve ρ) :=
  (indices g.shape).map fun (ind : List ℕ) =>
    ⟨label pre name ind, slice X sl, slice ((List.range g.n).map fun (k : ℕ) => f (g.re ind k, g.im ind k)) sl⟩

/-- `plot_base`, 62-97; `spec` is `-1/π` times its argument (90) -/
def plotBase (g : PlotGf ρ) (name : String) (X : List ρ) (window : Option (ρ × ρ)) (mode : String) (allowSpectral : Bool) (spec : ρ → ρ) :
    Except Err (List (Curve ρ)) :=
  match (match window with
    | none => .ok (0, X.length)
    | some (lo, hi) => clip X lo hi : Except Err (ℕ × ℕ)) with
  | .error e => .error e
  | .ok sl =>
    if g.isReal then .ok (mdic g name X sl "" Prod.fst)
    else if mode = "" then .ok (mdic g name X sl "Re " Prod.fst ++ mdic g name X sl "Im " Prod.snd)
    else if mode = "R" then .ok (mdic g name X sl "Re " Prod.fst)
    else if mode = "I" then .ok (mdic g name X sl "Im " Prod.snd)
    else if mode = "S" then
      if allowSpectral then .ok (mdic g name X sl "" fun z => spec z.2) else .error .value
    else .error .value

end Base

section View

variable {ρ β : Type} [LinearOrder ρ]

/-- the array of the x values, gf.py:774-775: numbers for imaginary frequencies, points of the mesh (which cannot be compared)
otherwise -/
inductive XData (ρ : Type) where
  | numbers (l : List ρ)
  | points (l : List ρ)

/-- the data returned: one matrix or one number per point -/
inductive YData (β : Type) where
  | matrices (l : List (ℕ → ℕ → β))
  | numbers (l : List β)

/-- `x_data_view`, 774-784, for a target of rank two with the given shape -/
def xDataView (imfreq : Bool) (X : List ρ) (n1 n2 : ℕ) (data : List (ℕ → ℕ → β)) (window : Option (ρ × ρ)) (flatten : Bool) :
    Except Err (XData ρ × YData β) :=
  let fin : XData ρ → List (ℕ → ℕ → β) → XData ρ × YData β := fun x d =>
    (x, if flatten ∧ n1 = 1 ∧ n2 = 1 then .numbers (d.map fun (m : ℕ → ℕ → β) => m 0 0) else .matrices d)
  match window with
  | none => .ok (fin (if imfreq then .numbers X else .points X) data)
  | some (lo, hi) =>
    if imfreq then
      match clip X lo hi with
      | .error e => .error e
      | .ok sl => .ok (fin (.numbers (slice X sl)) (slice data sl))
    else if ¬ lo ≤ hi then .error .assertion
    else if X = [] then .ok (fin (.points []) (slice data (0, 0)))
    else .error .type

end View

/-- `numpy.arange(a, b, step)` -/
def arange (a b step : ℚ) : List ℚ := (List.range ⌈(b - a) / step⌉₊).map fun (i : ℕ) => a + i * step

/-- the points of a function that is plotted, protocol.py:66-70 -/
def callablePoints {β : Type} (f : ℚ → β) (n : ℕ) (xmin xmax : ℚ) : Except Err (List (ℚ × β)) :=
  if n = 0 ∨ xmax - xmin = 0 then .error .zeroDivision
  else .ok ((arange xmin xmax ((xmax - xmin) / n)).map fun (x : ℚ) => (x, f x))

/-! ## Specification -/

/-- valid indices of a target -/
def Valid (shape ind : List ℕ) : Prop := List.Forall₂ (fun i n => i < n) ind shape

/-- the first index runs fastest: comparison from the last index -/
def Colex (a b : List ℕ) : Prop := List.Lex (· < ·) a.reverse b.reverse

/-- inside the window, if there is one -/
def inside {ρ : Type} [LinearOrder ρ] : Option (ρ × ρ) → ρ → Bool
  | none, _ => true
  | some (lo, hi), x => decide (lo ≤ x ∧ x ≤ hi)

/-- the curve of one index, with the label and the values inside the window -/
def IsCurve {ρ : Type} [LinearOrder ρ] (X : List ρ) (window : Option (ρ × ρ)) (lab : String) (val : ℕ → ρ) (c : Curve ρ) : Prop :=
  c.label = lab ∧ c.x.length = c.y.length ∧ c.x.zip c.y =
    ((X.zipIdx.filter fun (p : ρ × ℕ) => inside window p.1).map fun (p : ρ × ℕ) => (p.1, val p.2))

/-- the parts that are plotted: prefix of the label and function of the value -/
def parts {ρ : Type} (isReal : Bool) (mode : String) (spec : ρ → ρ) : List (String × (ρ × ρ → ρ)) :=
  if isReal then [("", Prod.fst)]
  else if mode = "" then [("Re ", Prod.fst), ("Im ", Prod.snd)]
  else if mode = "R" then [("Re ", Prod.fst)]
  else if mode = "I" then [("Im ", Prod.snd)]
  else [("", fun z => spec z.2)]

/-! ## Proofs -/

section ClipProofs

variable {α : Type} [LinearOrder α]

theorem C150_assertion (x : List α) (lo hi : α) : clip x lo hi = .error .assertion ↔ hi < lo := by
  unfold clip
  constructor
  · intro h
    by_contra hc
    rw [if_neg (by simpa using hc)] at h
    split at h
    · cases h
    · split at h <;> cases h
  · intro h
    rw [if_pos (by simpa using h)]

/-- the slice consists exactly of the points in the window, for ordered values -/
theorem C150_clip (x : List α) (hs : x.Pairwise (· ≤ ·)) (lo hi : α) (h : lo ≤ hi) :
    ∃ s, clip x lo hi = .ok s ∧ ∀ k (hk : k < x.length), (s.1 ≤ k ∧ k < s.2) ↔ (lo ≤ x[k] ∧ x[k] ≤ hi) := by
  have mono : ∀ i j (hi : i < x.length) (hj : j < x.length), i ≤ j → x[i] ≤ x[j] := by
    intro i j hi hj hij
    rcases Nat.eq_or_lt_of_le hij with rfl | hlt
    · exact le_rfl
    · exact List.pairwise_iff_getElem.mp hs i j hi hj hlt
  unfold clip
  rw [if_neg (by simpa using h)]
  cases h1 : x.findIdx? fun (v : α) => !decide (v < lo) with
  | none =>
    refine ⟨_, rfl, fun k hk => ?_⟩
    have := List.findIdx?_eq_none_iff.mp h1 x[k] (List.getElem_mem hk)
    simp only [Bool.not_eq_false', decide_eq_true_eq] at this
    constructor
    · rintro ⟨_, h⟩; exact absurd h (by simp)
    · rintro ⟨h, _⟩; exact absurd this (not_lt.mpr h)
  | some low =>
    obtain ⟨hl, hl1, hl2⟩ := List.findIdx?_eq_some_iff_getElem.mp h1
    simp only [Bool.not_eq_true', decide_eq_false_iff_not, not_lt] at hl1
    have hlow : ∀ k (hk : k < x.length), low ≤ k ↔ lo ≤ x[k] := by
      intro k hk
      constructor
      · intro hle; exact hl1.trans (mono low k hl hk hle)
      · intro hle
        by_contra hc
        have := hl2 k (by omega)
        simp only [Bool.not_eq_true, Bool.not_eq_false', decide_eq_true_eq] at this
        exact absurd this (not_lt.mpr hle)
    cases h2 : x.findIdx? fun (v : α) => decide (hi < v) with
    | none =>
      refine ⟨_, rfl, fun k hk => ?_⟩
      have := List.findIdx?_eq_none_iff.mp h2 x[k] (List.getElem_mem hk)
      simp only [decide_eq_false_iff_not, not_lt] at this
      simp only [hlow k hk, hk, this, and_true]
    | some high =>
      obtain ⟨hh, hh1, hh2⟩ := List.findIdx?_eq_some_iff_getElem.mp h2
      simp only [decide_eq_true_eq] at hh1
      refine ⟨_, rfl, fun k hk => ?_⟩
      simp only [hlow k hk]
      refine and_congr_right fun _ => ?_
      constructor
      · intro hlt
        have := hh2 k hlt
        simpa using this
      · intro hle
        by_contra hc
        exact absurd (hh1.trans_le (mono high k hh hk (by omega))) (not_lt.mpr hle)

/-- a generator gives a slice that ends `low + 1` too early, or an exception if no value is beyond the window -/
theorem C150_generator (x : List α) (lo hi : α) (h : lo ≤ hi) (low : ℕ) (hs : x.Pairwise (· ≤ ·))
    (h1 : x.findIdx? (fun (v : α) => !decide (v < lo)) = some low) (hin : ∀ v, x[low]? = some v → v ≤ hi) :
    (∀ high, clipGen x lo hi = .ok (low, high) ↔ clip x lo hi = .ok (low, high + low + 1) ∧ high + low + 1 < x.length) ∧
      (clipGen x lo hi = .error .type ↔ ∀ v ∈ x, v ≤ hi) := by
  obtain ⟨hl, hl1, hl2⟩ := List.findIdx?_eq_some_iff_getElem.mp h1
  have hv := hin x[low] (List.getElem?_eq_getElem hl)
  have mono : ∀ i j (hi : i < x.length) (hj : j < x.length), i ≤ j → x[i] ≤ x[j] := by
    intro i j hi hj hij
    rcases Nat.eq_or_lt_of_le hij with rfl | hlt
    · exact le_rfl
    · exact List.pairwise_iff_getElem.mp hs i j hi hj hlt
  have hpre : ∀ k (hk : k < x.length), k ≤ low → x[k] ≤ hi := fun k hk hle => (mono k low hk hl hle).trans hv
  unfold clip clipGen
  simp only [not_le, not_lt.mpr h, if_false, h1]
  cases h2 : (x.drop (low + 1)).findIdx? fun (v : α) => decide (hi < v) with
  | none =>
    have hall : ∀ v ∈ x, v ≤ hi := by
      intro v hm
      obtain ⟨k, hk, rfl⟩ := List.getElem_of_mem hm
      rcases Nat.lt_or_ge low k with hlt | hge
      · have := List.findIdx?_eq_none_iff.mp h2 x[k] (by
          rw [List.mem_iff_getElem]
          refine ⟨k - (low + 1), by rw [List.length_drop]; omega, ?_⟩
          rw [List.getElem_drop]
          congr 1
          omega)
        simpa using this
      · exact hpre k hk hge
    have h3 : x.findIdx? (fun (v : α) => decide (hi < v)) = none := by
      rw [List.findIdx?_eq_none_iff]
      intro v hm
      simpa using hall v hm
    rw [h3]
    refine ⟨fun high => ?_, by simpa using hall⟩
    simp only [Except.ok.injEq, Prod.mk.injEq, true_and, reduceCtorEq, false_iff, not_and]
    omega
  | some high =>
    obtain ⟨hh, hh1, hh2⟩ := List.findIdx?_eq_some_iff_getElem.mp h2
    rw [List.length_drop] at hh
    rw [List.getElem_drop] at hh1
    simp only [decide_eq_true_eq] at hh1
    have h3 : x.findIdx? (fun (v : α) => decide (hi < v)) = some (low + 1 + high) := by
      rw [List.findIdx?_eq_some_iff_getElem]
      refine ⟨by omega, by simpa using hh1, fun j hj => ?_⟩
      simp only [decide_eq_true_eq, not_lt]
      rcases Nat.lt_or_ge low j with hlt | hge
      · have := hh2 (j - (low + 1)) (by omega)
        rw [List.getElem_drop] at this
        simp only [decide_eq_true_eq, not_lt] at this
        have e : low + 1 + (j - (low + 1)) = j := by omega
        simpa only [e] using this
      · exact hpre j (by omega) hge
    rw [h3]
    refine ⟨fun high' => ?_, ?_⟩
    · simp only [Except.ok.injEq, Prod.mk.injEq, true_and]
      omega
    · simp only [reduceCtorEq, false_iff, not_forall, not_le]
      exact ⟨_, List.getElem_mem (show low + 1 + high < x.length by omega), hh1⟩

theorem slice_eq_filter {β : Type} (x : List β) (s : ℕ × ℕ) (p : β × ℕ → Bool)
    (h : ∀ k (hk : k < x.length), (s.1 ≤ k ∧ k < s.2) ↔ p (x[k], k) = true) : slice x s = (x.zipIdx.filter p).map Prod.fst := by
  obtain ⟨a, b⟩ := s
  simp only at h
  unfold slice
  simp only
  have aux : ∀ (l : List β) (n : ℕ), (∀ k (hk : k < l.length), (a ≤ n + k ∧ n + k < b) ↔ p (l[k], n + k) = true) →
      (l.take (b - n)).drop (a - n) = ((l.zipIdx n).filter p).map Prod.fst := by
    intro l
    induction l with
    | nil => simp
    | cons v l ih =>
      intro n hn
      have ih' := ih (n + 1) (fun k hk => by
        have := hn (k + 1) (by simpa using hk)
        simp only [List.getElem_cons_succ] at this
        rw [show n + 1 + k = n + (k + 1) by omega]
        exact this)
      have h0 := hn 0 (by simp)
      simp only [Nat.add_zero, List.getElem_cons_zero] at h0
      rw [List.zipIdx_cons, List.filter_cons]
      by_cases hb : n < b
      · have eb : b - n = (b - (n + 1)) + 1 := by omega
        by_cases ha : a ≤ n
        · rw [if_pos (h0.mp ⟨ha, hb⟩), List.map_cons, ← ih', eb, List.take_succ_cons]
          rw [show a - n = 0 by omega, show a - (n + 1) = 0 by omega]
          rfl
        · rw [if_neg (fun h' => ha (h0.mpr h').1), ← ih', eb, List.take_succ_cons]
          rw [show a - n = (a - (n + 1)) + 1 by omega, List.drop_succ_cons]
      · rw [if_neg (fun h' => hb (h0.mpr h').2), ← ih', show b - n = 0 by omega, show b - (n + 1) = 0 by omega]
        simp
  have := aux x 0 (by simpa using h)
  simpa using this

end ClipProofs

section BaseProofs

theorem mem_product (L : List (List ℕ)) (t : List ℕ) : t ∈ product L ↔ List.Forall₂ (· ∈ ·) t L := by
  induction L generalizing t with
  | nil => simp [product]
  | cons l ls ih =>
    simp only [product, List.mem_flatMap, List.mem_map]
    constructor
    · rintro ⟨a, ha, u, hu, rfl⟩
      exact List.Forall₂.cons ha ((ih u).mp hu)
    · intro h
      cases h with
      | cons h1 h2 => exact ⟨_, h1, _, (ih _).mpr h2, rfl⟩

theorem product_sorted (L : List (List ℕ)) (h : ∀ l ∈ L, l.Pairwise (· < ·)) : (product L).Pairwise (List.Lex (· < ·)) := by
  induction L with
  | nil => simp [product]
  | cons l ls ih =>
    have hl := h l (by simp)
    have ih' := ih (fun m hm => h m (by simp [hm]))
    simp only [product]
    rw [List.pairwise_flatMap]
    refine ⟨fun a _ => ?_, ?_⟩
    · rw [List.pairwise_map]
      exact ih'.imp fun hab => List.Lex.cons hab
    · refine hl.imp fun {a b} hab => ?_
      intro x hx y hy
      obtain ⟨u, _, rfl⟩ := List.mem_map.mp hx
      obtain ⟨v, _, rfl⟩ := List.mem_map.mp hy
      exact List.Lex.rel hab

theorem mem_indices (shape ind : List ℕ) : ind ∈ indices shape ↔ Valid shape ind := by
  unfold indices Valid
  rw [List.mem_map]
  constructor
  · rintro ⟨t, ht, rfl⟩
    have h1 := (mem_product _ _).mp ht
    rw [List.forall₂_map_right_iff] at h1
    have h2 := List.rel_reverse h1
    rw [List.reverse_reverse] at h2
    exact h2.imp fun a b hab => List.mem_range.mp hab
  · intro h
    refine ⟨ind.reverse, (mem_product _ _).mpr ?_, List.reverse_reverse _⟩
    rw [List.forall₂_map_right_iff]
    exact List.rel_reverse (h.imp fun a b hab => List.mem_range.mpr hab)

/-- every index of the target exactly once, the first index fastest -/
theorem C150_indices (shape : List ℕ) : (∀ ind, ind ∈ indices shape ↔ Valid shape ind) ∧ (indices shape).Pairwise Colex := by
  refine ⟨mem_indices shape, ?_⟩
  unfold indices
  rw [List.pairwise_map]
  have := product_sorted (shape.reverse.map List.range) (fun l hl => by
    obtain ⟨n, _, rfl⟩ := List.mem_map.mp hl
    exact List.pairwise_lt_range)
  refine this.imp fun {a b} hab => ?_
  unfold Colex
  rw [List.reverse_reverse, List.reverse_reverse]
  exact hab

theorem lex_irrefl (a : List ℕ) : ¬ List.Lex (· < ·) a a := by
  induction a with
  | nil => intro h; cases h
  | cons x a ih =>
    intro h
    cases h with
    | rel h => exact absurd h (lt_irrefl x)
    | cons h => exact ih h

theorem indices_nodup (shape : List ℕ) : (indices shape).Nodup := by
  refine (C150_indices shape).2.imp fun {a b} hab => ?_
  rintro rfl
  exact lex_irrefl _ hab

theorem append_sep' {s s' d d' : List Char} {c : Char} (hd : c ∉ s) (hd' : c ∉ s') (h : s ++ c :: d = s' ++ c :: d') : s = s' ∧ d = d' := by
  rw [List.append_eq_append_iff] at h
  rcases h with ⟨t, h1, h2⟩ | ⟨t, h1, h2⟩
  · cases t with
    | nil => simp at h1 h2; exact ⟨h1.symm, h2⟩
    | cons x t =>
      simp only [List.cons_append, List.cons.injEq] at h2
      exact absurd (by rw [h1, ← h2.1]; simp) hd'
  · cases t with
    | nil => simp at h1 h2; exact ⟨h1, h2.symm⟩
    | cons x t =>
      simp only [List.cons_append, List.cons.injEq] at h2
      exact absurd (by rw [h1, ← h2.1]; simp) hd

theorem not_mem_digits (o : ℕ) : '_' ∉ (toString o).toList := by
  intro h
  have : (toString o).toList = Nat.toDigits 10 o := Nat.toList_repr
  rw [this] at h
  have := Nat.isDigit_of_mem_toDigits (by decide) (by decide) h
  exact absurd this (by decide)

theorem intercalate_inj (l l' : List ℕ) (hlen : l.length = l'.length)
    (h : (List.intercalate ['_'] (l.map fun (i : ℕ) => (toString i).toList)) = List.intercalate ['_'] (l'.map fun (i : ℕ) => (toString i).toList)) :
    l = l' := by
  induction l generalizing l' with
  | nil => exact (List.length_eq_zero_iff.mp hlen.symm).symm
  | cons a l ih =>
    cases l' with
    | nil => simp at hlen
    | cons a' l' =>
      cases l with
      | nil =>
        have h0 : l' = [] := List.length_eq_zero_iff.mp (by simpa using hlen.symm)
        subst h0
        simp only [List.map_cons, List.map_nil, List.intercalate_singleton] at h
        rw [Nat.repr_injective (String.toList_injective h)]
      | cons b l =>
        cases l' with
        | nil => simp at hlen
        | cons b' l' =>
          simp only [List.map_cons, List.intercalate_cons_cons] at h
          have h' : (toString a).toList ++ '_' :: List.intercalate ['_'] (((b :: l).map fun (i : ℕ) => (toString i).toList)) =
              (toString a').toList ++ '_' :: List.intercalate ['_'] (((b' :: l').map fun (i : ℕ) => (toString i).toList)) := by
            simpa using h
          obtain ⟨h1, h2⟩ := append_sep' (not_mem_digits a) (not_mem_digits a') h'
          rw [Nat.repr_injective (String.toList_injective h1), ih (b' :: l') (by simpa using hlen) h2]

/-- different elements have different labels -/
theorem C150_labels (pre name : String) (shape a b : List ℕ) (ha : Valid shape a) (hb : Valid shape b) (h : label pre name a = label pre name b) :
    a = b := by
  have hlen : a.length = b.length := (List.Forall₂.length_eq ha).trans (List.Forall₂.length_eq hb).symm
  have h1 := congrArg String.toList h
  unfold label at h1
  simp only [String.toList_append, String.toList_intercalate, List.map_map] at h1
  exact intercalate_inj a b hlen (List.append_cancel_left h1)

variable {ρ : Type} [LinearOrder ρ]

/-- the slice of a plot -/
theorem curve_of (g : PlotGf ρ) (X : List ρ) (hX : X.length = g.n) (window : Option (ρ × ρ)) (sl : ℕ × ℕ)
    (hsl : ∀ k (hk : k < X.length), (sl.1 ≤ k ∧ k < sl.2) ↔ inside window X[k] = true)
    (lab : String) (val : ℕ → ρ) : IsCurve X window lab val ⟨lab, slice X sl, slice ((List.range g.n).map fun (k : ℕ) => val k) sl⟩ := by
  refine ⟨rfl, by simp [slice, hX], ?_⟩
  simp only
  have e1 : (slice X sl).zip (slice ((List.range g.n).map fun (k : ℕ) => val k) sl) =
      slice (X.zip ((List.range g.n).map fun (k : ℕ) => val k)) sl := by
    unfold slice
    show List.zipWith Prod.mk _ _ = List.drop _ (List.take _ (List.zipWith Prod.mk _ _))
    rw [List.take_zipWith, List.drop_zipWith]
  have e2 : X.zip ((List.range g.n).map fun (k : ℕ) => val k) = X.zipIdx.map fun (p : ρ × ℕ) => (p.1, val p.2) := by
    apply List.ext_getElem
    · simp [hX]
    · intro k h1 h2
      simp
  have e3 : slice (X.zipIdx.map fun (p : ρ × ℕ) => (p.1, val p.2)) sl = (slice X.zipIdx sl).map fun (p : ρ × ℕ) => (p.1, val p.2) := by
    unfold slice
    rw [List.map_drop, List.map_take]
  rw [e1, e2, e3]
  congr 1
  have := slice_eq_filter X.zipIdx sl (fun q : (ρ × ℕ) × ℕ => inside window q.1.1) (fun k hk => by
    have hk' : k < X.length := by simpa using hk
    rw [hsl k hk']
    simp)
  rw [this]
  rw [show X.zipIdx.zipIdx = X.zipIdx.map fun (p : ρ × ℕ) => (p, p.2) from by
    apply List.ext_getElem
    · simp
    · intro k h1 h2
      simp]
  rw [List.filter_map, List.map_map]
  simp [Function.comp_def]

theorem mdic_spec (g : PlotGf ρ) (name : String) (X : List ρ) (sl : ℕ × ℕ) (pre : String) (f : ρ × ρ → ρ) :
    List.Forall₂ (fun ind c => c = (⟨label pre name ind, slice X sl, slice ((List.range g.n).map fun (k : ℕ) => f (g.re ind k, g.im ind k)) sl⟩ : Curve ρ))
      (indices g.shape) (mdic g name X sl pre f) := by
  unfold mdic
  rw [List.forall₂_map_right_iff, List.forall₂_same]
  exact fun _ _ => rfl

/-- the slice that is used: all points, or those in the window -/
theorem window_slice (X : List ρ) (hs : X.Pairwise (· ≤ ·)) (window : Option (ρ × ρ)) (hw : ∀ p, window = some p → p.1 ≤ p.2) :
    ∃ sl, (match window with
      | none => .ok (0, X.length)
      | some (lo, hi) => clip X lo hi : Except Err (ℕ × ℕ)) = .ok sl ∧
        ∀ k (hk : k < X.length), (sl.1 ≤ k ∧ k < sl.2) ↔ inside window X[k] = true := by
  cases window with
  | none => exact ⟨_, rfl, fun k hk => by simp [inside, hk]⟩
  | some p =>
    obtain ⟨lo, hi⟩ := p
    obtain ⟨sl, h1, h2⟩ := C150_clip X hs lo hi (hw _ rfl)
    exact ⟨sl, h1, fun k hk => by simpa [inside] using h2 k hk⟩

theorem mdic_curves (g : PlotGf ρ) (name : String) (X : List ρ) (hX : X.length = g.n) (window : Option (ρ × ρ)) (sl : ℕ × ℕ)
    (hsl : ∀ k (hk : k < X.length), (sl.1 ≤ k ∧ k < sl.2) ↔ inside window X[k] = true) (pre : String) (f : ρ × ρ → ρ) :
    List.Forall₂ (fun ind c => IsCurve X window (label pre name ind) (fun k => f (g.re ind k, g.im ind k)) c)
      (indices g.shape) (mdic g name X sl pre f) :=
  (mdic_spec g name X sl pre f).imp fun ind c hc => by
    subst hc
    exact curve_of g X hX window sl hsl _ _

/-- for ordered points: one curve per index of the target and part, in the order of the indices, with the values at the points
inside the window; `S` only if allowed, other modes are refused unless the data are real -/
theorem C150_plot (g : PlotGf ρ) (name : String) (X : List ρ) (hX : X.length = g.n) (hs : X.Pairwise (· ≤ ·)) (window : Option (ρ × ρ))
    (hw : ∀ p, window = some p → p.1 ≤ p.2) (mode : String) (allow : Bool) (spec : ρ → ρ) :
    if g.isReal = true ∨ mode = "" ∨ mode = "R" ∨ mode = "I" ∨ (mode = "S" ∧ allow = true) then
      ∃ cs, plotBase g name X window mode allow spec = .ok cs ∧
        List.Forall₂ (fun (q : (String × (ρ × ρ → ρ)) × List ℕ) c =>
          IsCurve X window (label q.1.1 name q.2) (fun k => q.1.2 (g.re q.2 k, g.im q.2 k)) c)
          ((parts g.isReal mode spec).flatMap fun (p : String × (ρ × ρ → ρ)) => (indices g.shape).map fun (ind : List ℕ) => (p, ind)) cs
    else plotBase g name X window mode allow spec = .error .value := by
  obtain ⟨sl, h1, h2⟩ := window_slice X hs window hw
  have hm := fun pre f => mdic_curves g name X hX window sl h2 pre f
  unfold plotBase parts
  rw [h1]
  simp only
  cases hr : g.isReal with
  | true =>
    simp only [true_or, if_true]
    refine ⟨_, rfl, ?_⟩
    simp only [List.flatMap_cons, List.flatMap_nil, List.append_nil, List.forall₂_map_left_iff]
    exact hm "" Prod.fst
  | false =>
    simp only [Bool.false_eq_true, false_or, if_false]
    by_cases m0 : mode = ""
    · simp only [m0, true_or, if_true]
      refine ⟨_, rfl, ?_⟩
      simp only [List.flatMap_cons, List.flatMap_nil, List.append_nil]
      refine List.rel_append ?_ ?_ <;> rw [List.forall₂_map_left_iff]
      · exact hm "Re " Prod.fst
      · exact hm "Im " Prod.snd
    · by_cases mR : mode = "R"
      · subst mR
        simp only [if_neg m0, if_true, true_or, or_true]
        refine ⟨_, rfl, ?_⟩
        simp only [List.flatMap_cons, List.flatMap_nil, List.append_nil, List.forall₂_map_left_iff]
        exact hm "Re " Prod.fst
      · by_cases mI : mode = "I"
        · subst mI
          simp only [if_neg m0, if_neg mR, if_true, true_or, or_true]
          refine ⟨_, rfl, ?_⟩
          simp only [List.flatMap_cons, List.flatMap_nil, List.append_nil, List.forall₂_map_left_iff]
          exact hm "Im " Prod.snd
        · by_cases mS : mode = "S"
          · subst mS
            cases allow with
            | true =>
              simp only [if_neg m0, if_neg mR, if_neg mI, if_true, and_true, or_true]
              refine ⟨_, rfl, ?_⟩
              simp only [List.flatMap_cons, List.flatMap_nil, List.append_nil, List.forall₂_map_left_iff]
              exact hm "" (fun z => spec z.2)
            | false => simp
          · simp [m0, mR, mI, mS]

/-- the labels of a plot are distinct -/
theorem C150_distinct (g : PlotGf ρ) (name : String) (X : List ρ) (window : Option (ρ × ρ)) (mode : String) (allow : Bool) (spec : ρ → ρ)
    (cs : List (Curve ρ)) (h : plotBase g name X window mode allow spec = .ok cs) : (cs.map Curve.label).Nodup := by
  have hm : ∀ sl pre f, ((mdic g name X sl pre f).map Curve.label) = (indices g.shape).map fun (ind : List ℕ) => label pre name ind := by
    intro sl pre f
    unfold mdic
    rw [List.map_map]
    rfl
  have hn : ∀ pre, ((indices g.shape).map fun (ind : List ℕ) => label pre name ind).Nodup := by
    intro pre
    refine List.Nodup.map_on (fun a ha b hb hab => ?_) (indices_nodup g.shape)
    exact C150_labels pre name g.shape a b ((mem_indices _ _).mp ha) ((mem_indices _ _).mp hb) hab
  unfold plotBase at h
  split at h
  · cases h
  · split at h
    · cases h; rw [hm]; exact hn _
    · split at h
      · cases h
        rw [List.map_append, hm, hm]
        refine List.Nodup.append (hn _) (hn _) ?_
        intro l h1 h2
        obtain ⟨a, _, rfl⟩ := List.mem_map.mp h1
        obtain ⟨b, _, hb⟩ := List.mem_map.mp h2
        have := congrArg String.toList hb
        unfold label at this
        simp only [String.toList_append] at this
        have e1 : ("Re " : String).toList = ['R', 'e', ' '] := rfl
        have e2 : ("Im " : String).toList = ['I', 'm', ' '] := rfl
        rw [e1, e2] at this
        simp at this
      · split at h
        · cases h; rw [hm]; exact hn _
        · split at h
          · cases h; rw [hm]; exact hn _
          · split at h
            · split at h
              · cases h; rw [hm]; exact hn _
              · cases h
            · cases h

end BaseProofs

section ViewProofs

variable {ρ β : Type} [LinearOrder ρ]

/-- imaginary frequencies: the points in the window with their data -/
theorem C150_view (X : List ρ) (hs : X.Pairwise (· ≤ ·)) (n1 n2 : ℕ) (data : List (ℕ → ℕ → β)) (hd : data.length = X.length)
    (window : Option (ρ × ρ)) (hw : ∀ p, window = some p → p.1 ≤ p.2) :
    ∃ x d, xDataView true X n1 n2 data window false = .ok (.numbers x, .matrices d) ∧ x = X.filter (fun v => inside window v) ∧
      x.zip d = (X.zip data).filter (fun (p : ρ × (ℕ → ℕ → β)) => inside window p.1) := by
  have key : ∀ sl : ℕ × ℕ, (∀ k (hk : k < X.length), (sl.1 ≤ k ∧ k < sl.2) ↔ inside window X[k] = true) →
      slice X sl = X.filter (fun v => inside window v) ∧ (slice X sl).zip (slice data sl) =
        (X.zip data).filter (fun (p : ρ × (ℕ → ℕ → β)) => inside window p.1) := by
    intro sl hsl
    constructor
    · rw [slice_eq_filter X sl (fun q => inside window q.1) hsl]
      conv => rhs; rw [← List.zipIdx_map_fst 0 X]
      rw [List.filter_map]
      rfl
    · have e : (slice X sl).zip (slice data sl) = slice (X.zip data) sl := by
        unfold slice
        show List.zipWith Prod.mk _ _ = List.drop _ (List.take _ (List.zipWith Prod.mk _ _))
        rw [List.take_zipWith, List.drop_zipWith]
      rw [e, slice_eq_filter (X.zip data) sl (fun q => inside window q.1.1) (fun k hk => by
        have hk' : k < X.length := by rw [List.length_zip] at hk; omega
        rw [hsl k hk']
        simp)]
      conv => rhs; rw [← List.zipIdx_map_fst 0 (X.zip data)]
      rw [List.filter_map]
      rfl
  unfold xDataView
  cases window with
  | none =>
    obtain ⟨k1, k2⟩ := key (0, X.length) (fun k hk => by simp [inside, hk])
    refine ⟨X, data, by simp, ?_, ?_⟩
    · simp [inside]
    · simp [inside]
  | some p =>
    obtain ⟨lo, hi⟩ := p
    obtain ⟨sl, h1, h2⟩ := C150_clip X hs lo hi (hw _ rfl)
    obtain ⟨k1, k2⟩ := key sl (fun k hk => by simpa [inside] using h2 k hk)
    simp only [if_true, h1]
    exact ⟨_, _, by simp, k1, k2⟩

/-- flattening concerns targets of shape one by one only -/
theorem C150_flatten (imfreq : Bool) (X : List ρ) (n1 n2 : ℕ) (data : List (ℕ → ℕ → β)) (window : Option (ρ × ρ)) (x : XData ρ)
    (d : List (ℕ → ℕ → β)) (h : xDataView imfreq X n1 n2 data window false = .ok (x, .matrices d)) :
    xDataView imfreq X n1 n2 data window true =
      .ok (x, if n1 = 1 ∧ n2 = 1 then .numbers (d.map fun (m : ℕ → ℕ → β) => m 0 0) else .matrices d) := by
  unfold xDataView at h ⊢
  simp only [Bool.false_eq_true, false_and, if_false, true_and] at h ⊢
  cases window with
  | none =>
    simp only [Except.ok.injEq, Prod.mk.injEq, YData.matrices.injEq] at h ⊢
    rw [h.1, h.2]
    exact ⟨rfl, rfl⟩
  | some p =>
    obtain ⟨lo, hi⟩ := p
    simp only at h ⊢
    cases imfreq with
    | true =>
      simp only [if_true] at h ⊢
      split at h
      · cases h
      · rename_i sl hsl
        simp only [Except.ok.injEq, Prod.mk.injEq, YData.matrices.injEq] at h
        simp only [h.1, h.2]
    | false =>
      simp only [Bool.false_eq_true, if_false] at h ⊢
      split at h
      · cases h
      · split at h
        · rename_i h1 h2
          simp only [Except.ok.injEq, Prod.mk.injEq, YData.matrices.injEq] at h
          rw [if_neg h1, if_pos h2]
          simp only [h.1, h.2]
        · cases h

/-- a window on any other mesh raises `TypeError` -/
theorem C150_view_window (X : List ρ) (hX : X ≠ []) (n1 n2 : ℕ) (data : List (ℕ → ℕ → β)) (lo hi : ρ) (h : lo ≤ hi) (flatten : Bool) :
    xDataView false X n1 n2 data (some (lo, hi)) flatten = .error .type := by
  unfold xDataView
  simp [h, hX]

end ViewProofs

/-- a function is plotted at `n` points of the window, which start at the left end and do not contain the right one -/
theorem C150_callable {β : Type} (f : ℚ → β) (n : ℕ) (xmin xmax : ℚ) :
    callablePoints f n xmin xmax = if n = 0 ∨ xmin = xmax then .error .zeroDivision
      else .ok ((List.range n).map fun (i : ℕ) => (xmin + (xmax - xmin) * i / n, f (xmin + (xmax - xmin) * i / n))) := by
  unfold callablePoints
  by_cases h : n = 0 ∨ xmin = xmax
  · rw [if_pos h, if_pos (h.imp id fun e => by rw [e, sub_self])]
  · rw [if_neg h, if_neg (fun h' => h (h'.imp id fun e => (sub_eq_zero.mp e).symm))]
    push Not at h
    obtain ⟨h0, h1⟩ := h
    have hn : (n : ℚ) ≠ 0 := by exact_mod_cast h0
    have hd : xmax - xmin ≠ 0 := sub_ne_zero.mpr (Ne.symm h1)
    unfold arange
    have e : (xmax - xmin) / ((xmax - xmin) / n) = (n : ℚ) := by field_simp
    rw [e, Nat.ceil_natCast, List.map_map]
    congr 1
    refine List.map_congr_left fun i _ => ?_
    have : xmin + (i : ℚ) * ((xmax - xmin) / n) = xmin + (xmax - xmin) * i / n := by field_simp
    simp only [Function.comp]
    rw [this]

/-! ### Examples -/

example : clip [0, 1, 2, 3, 4] (1 : ℤ) 3 = .ok (1, 4) := by decide +kernel

/-- a generator loses points of the window -/
theorem C150_generator_wrong : clipGen [0, 1, 2, 3, 4] (1 : ℤ) 3 = .ok (1, 2) := by decide +kernel

/-- values that are not ordered: the slice contains a point outside the window and loses one inside -/
theorem C150_not_ordered : clip [1, 0, 5, 2] (1 : ℤ) 3 = .ok (0, 2) := by decide +kernel

example : indices [2, 3] = [[0, 0], [1, 0], [0, 1], [1, 1], [0, 2], [1, 2]] := by decide +kernel

example : label "Re " "G" [0, 11] = "Re G 0_11" := by decide +kernel

/-- real data overrule a meaningless mode -/
theorem C150_real_overrules : plotBase (⟨[1], true, 2, fun _ k => k, fun _ _ => 0⟩ : PlotGf ℤ) "G" [0, 1] none "meaningless" false id =
    .ok [⟨"G 0", [0, 1], [0, 1]⟩] := by rfl

example : callablePoints (fun x : ℚ => x * x) 2 0 1 = .ok [(0, 0), (1 / 2, 1 / 4)] := by
  rw [C150_callable]
  norm_num [List.range_succ]

end Verif.PyPlot
