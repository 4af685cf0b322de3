import Verif.Lattice.Wannier

/-!
# Property C143: tight-binding models from pythTB and as formulas of sympy

Source: `/repo/python/triqs/lattice/utils.py` (`TB_from_pythTB` 216-258, `TB_to_sympy` 261-413), `/repo/python/triqs/lattice/lattice_tools_desc.py`
(117-137).

Simplifications: exact numbers. A pythTB model is the list of its on-site energies and of its hoppings. A formula of sympy is
its value at given real `a1k, a2k, a3k`, so `rewrite` (line 345) does nothing; the rounding of the matrices (line 327) is any
function of the elements. The numerical form substitutes the products with the rounded unit vectors (398-405).
-/

namespace Verif.TBConvert
open Complex Verif.TightBinding
open Verif.Wannier (Entry insert dictSum toTB toTB_fourier map_sum_range list_range_sum)

/-! ## Model -/

inductive Err where
  | key
  | index
  | value
deriving DecidableEq

/-- an element of `_hoppings` of a pythTB model -/
structure Hop where
  t : ℂ
  i : ℕ
  j : ℕ
  R : List ℤ

/-- `tuple(-np.array(displacement))` -/
def neg (R : List ℤ) : List ℤ := R.map fun x => -x

def hasKey (d : List Entry) (R : List ℤ) : Bool := d.any fun e => e.1 == R

/-- `d[R][a, b] += x` -/
def addAt (n : ℕ) (d : List Entry) (R : List ℤ) (a b : ℕ) (x : ℂ) : Except Err (List Entry) :=
  if hasKey d R = false then .error .key
  else if n ≤ a ∨ n ≤ b then .error .index
  else .ok (d.map fun e => if e.1 == R then (e.1, fun a' b' => e.2 a' b' + if a' = a ∧ b' = b then x else 0) else e)

/-- body of the loop, lines 243-252 -/
def step (n : ℕ) (d : List Entry) (h : Hop) : Except Err (List Entry) :=
  let d1 := if hasKey d h.R then d else insert (insert d (h.R, fun _ _ => 0)) (neg h.R, fun _ _ => 0)
  addAt n d1 h.R h.i h.j h.t >>= fun d2 => addAt n d2 (neg h.R) h.j h.i ((starRingEnd ℂ) h.t)

/-- the loop, line 242 -/
def fill (n : ℕ) : List Entry → List Hop → Except Err (List Entry)
  | d, [] => .ok d
  | d, h :: hs => step n d h >>= fun d' => fill n d' hs

/-- the dictionary of `TB_from_pythTB`, lines 235-252 -/
def fromPyth (n : ℕ) (site : ℕ → ℝ) (hops : List Hop) : Except Err (List Entry) :=
  fill n [([0, 0, 0], fun a b => if a = b then (site a : ℂ) else 0)] hops

/-- the arguments of the constructor of `TightBinding`, lattice_tools_desc.py:127-136, for a lattice of dimension `nd` -/
def ofDict (nd n : ℕ) (d : List Entry) : TB := ⟨nd, n, d.map Prod.fst, d.map fun e => ⟨n, n, e.2⟩⟩

/-- the index of an axis with `n` elements -/
def axis (n : ℕ) (i : ℤ) : Option ℕ := if 0 ≤ i ∧ i < n then some i.toNat else if -(n : ℤ) ≤ i ∧ i < 0 then some (i + n).toNat else none

/-- the array `Hrij` of line 322 -/
abbrev Cells := ℕ → ℕ → ℕ → ℕ → ℕ → ℂ

/-- the loop of lines 325-328 -/
def place (round : ℂ → ℂ) (mx my mz : ℕ) : Cells → List Entry → Except Err Cells
  | H, [] => .ok H
  | H, e :: es =>
    match axis (2 * mx + 1) (e.1.getD 0 0 + mx), axis (2 * my + 1) (e.1.getD 1 0 + my), axis (2 * mz + 1) (e.1.getD 2 0 + mz) with
    | some x, some y, some z => place round mx my mz (fun x' y' z' a b => if x' = x ∧ y' = y ∧ z' = z then round (e.2 a b) else H x' y' z' a b) es
    | _, _, _ => .error .index

/-- lines 334-341, for the real numbers `a1k, a2k, a3k` -/
noncomputable def total (mx my mz : ℕ) (H : Cells) (ak : ℕ → ℝ) (a b : ℕ) : ℂ :=
  ∑ x ∈ Finset.range (2 * mx + 1), ∑ y ∈ Finset.range (2 * my + 1), ∑ z ∈ Finset.range (2 * mz + 1),
    H x y z a b * exp (-I * ((ak 0 * ((x : ℤ) - mx : ℤ) + ak 1 * ((y : ℤ) - my : ℤ) + ak 2 * ((z : ℤ) - mz : ℤ) : ℝ) : ℂ))

/-- the analytical form of `TB_to_sympy`, lines 301-341, for the shape `(r, c)` of the unit vectors and the hoppings `d` -/
noncomputable def toSympy (r c : ℕ) (round : ℂ → ℂ) (d : List Entry) : Except Err ((ℕ → ℝ) → ℕ → ℕ → ℂ) :=
  if (r = 2 ∧ c = 2) ∨ (r = 3 ∧ c = 3) then
    let hops := if r = 2 then d.map fun e => (e.1 ++ [0], e.2) else d
    match (hops.map fun e => e.1.getD 0 0).max?, (hops.map fun e => e.1.getD 1 0).max?, (hops.map fun e => e.1.getD 2 0).max? with
    | some mx, some my, some mz =>
      if mx < 0 ∨ my < 0 ∨ mz < 0 then .error .value
      else place round mx.toNat my.toNat mz.toNat (fun _ _ _ _ _ => 0) hops >>= fun H => .ok (total mx.toNat my.toNat mz.toNat H)
    | _, _, _ => .error .value
  else .error .value

/-- the numerical form, lines 398-405: `units` are the rounded unit vectors -/
noncomputable def toSympyNumerical (r c : ℕ) (round : ℂ → ℂ) (units : ℕ → ℕ → ℝ) (d : List Entry) : Except Err ((ℕ → ℝ) → ℕ → ℕ → ℂ) :=
  toSympy r c round d >>= fun H => .ok fun k => H fun i => ∑ j ∈ Finset.range 3, units i j * k j

/-! ## Specification -/

/-- the Hamiltonian of a pythTB model: `E_a δ_ab` and for each hopping `t exp(2 π i k R) |i><j|` with its adjoint -/
noncomputable def pythHamiltonian (site : ℕ → ℝ) (hops : List Hop) (k : ℕ → ℝ) (a b : ℕ) : ℂ :=
  (if a = b then (site a : ℂ) else 0) + (hops.map fun h =>
    (if a = h.i ∧ b = h.j then h.t * exp (2 * I * Real.pi * dotk 3 k h.R) else 0) +
    (if b = h.i ∧ a = h.j then (starRingEnd ℂ) (h.t * exp (2 * I * Real.pi * dotk 3 k h.R)) else 0)).sum

/-- the hopping matrix of the lattice vector `R` of a pythTB model -/
noncomputable def pythMatrix (site : ℕ → ℝ) (hops : List Hop) (R : List ℤ) (a b : ℕ) : ℂ :=
  (if R = [0, 0, 0] ∧ a = b then (site a : ℂ) else 0) + (hops.map fun h =>
    (if R = h.R ∧ a = h.i ∧ b = h.j then h.t else 0) + (if R = neg h.R ∧ b = h.i ∧ a = h.j then (starRingEnd ℂ) h.t else 0)).sum

/-! ## Proofs -/

theorem neg_neg' (R : List ℤ) : neg (neg R) = R := by
  unfold neg
  rw [List.map_map]
  conv_rhs => rw [← List.map_id R]
  apply List.map_congr_left
  intro x _
  simp

theorem hasKey_iff (d : List Entry) (R : List ℤ) : hasKey d R = true ↔ R ∈ d.map Prod.fst := by
  unfold hasKey
  rw [List.any_eq_true, List.mem_map]
  constructor
  · rintro ⟨x, hx, hx2⟩; exact ⟨x, hx, by simpa using hx2⟩
  · rintro ⟨x, hx, hx2⟩; exact ⟨x, hx, by simpa using hx2⟩

/-- a linear function of the hoppings -/
noncomputable def lin (φ : List ℤ → ℂ) (d : List Entry) (a b : ℕ) : ℂ := (d.map fun e => φ e.1 * e.2 a b).sum

theorem addAt_keys {n : ℕ} {d d' : List Entry} {R : List ℤ} {a b : ℕ} {x : ℂ} (h : addAt n d R a b x = .ok d') : d'.map Prod.fst = d.map Prod.fst := by
  unfold addAt at h
  split at h
  · cases h
  · split at h
    · cases h
    · cases h
      rw [List.map_map]
      apply List.map_congr_left
      intro e _
      simp only [Function.comp]
      split <;> rfl

theorem lin_addAt (φ : List ℤ → ℂ) {n : ℕ} {d d' : List Entry} {R : List ℤ} {a b : ℕ} {x : ℂ} (h : addAt n d R a b x = .ok d')
    (hnd : (d.map Prod.fst).Nodup) (a' b' : ℕ) : lin φ d' a' b' = lin φ d a' b' + if a' = a ∧ b' = b then φ R * x else 0 := by
  have hmem : R ∈ d.map Prod.fst := by
    rw [← hasKey_iff]
    unfold addAt at h
    split at h
    · cases h
    · rename_i h1; simpa using h1
  unfold addAt at h
  split at h
  · cases h
  split at h
  · cases h
  cases h
  have hno : ∀ l : List Entry, R ∉ l.map Prod.fst →
      l.map (fun e => if e.1 == R then (e.1, fun a' b' => e.2 a' b' + if a' = a ∧ b' = b then x else 0) else e) = l := by
    intro l hl
    conv_rhs => rw [← List.map_id l]
    apply List.map_congr_left
    intro e he
    rw [if_neg]
    · rfl
    · intro hc
      exact hl (by rw [beq_iff_eq] at hc; exact hc ▸ List.mem_map_of_mem he)
  clear * - hnd hmem hno
  induction d with
  | nil => simp at hmem
  | cons e d ih =>
    rw [List.map_cons, List.nodup_cons] at hnd
    by_cases he : e.1 = R
    · rw [List.map_cons, hno d (by rw [← he]; exact hnd.1), if_pos (by rw [he]; simp)]
      unfold lin
      rw [List.map_cons, List.map_cons, List.sum_cons, List.sum_cons]
      simp only [he]
      split <;> ring
    · have hz' : R ∈ d.map Prod.fst := by
        rw [List.map_cons, List.mem_cons] at hmem
        exact hmem.resolve_left (fun h => he h.symm)
      have := ih hnd.2 hz'
      unfold lin at this ⊢
      rw [List.map_cons, List.map_cons, List.sum_cons, this, if_neg (by simpa using he), List.map_cons, List.sum_cons]
      ring

theorem insert_new {d : List Entry} {e : Entry} (h : e.1 ∉ d.map Prod.fst) : insert d e = d ++ [e] := by
  unfold Wannier.insert
  rw [if_neg]
  have := (hasKey_iff d e.1).not.mpr h
  exact this

theorem lin_append (φ : List ℤ → ℂ) (d : List Entry) (e : Entry) (a b : ℕ) : lin φ (d ++ [e]) a b = lin φ d a b + φ e.1 * e.2 a b := by
  unfold lin
  rw [List.map_append, List.sum_append]
  simp

/-- what holds of the dictionary after the hoppings `hs` -/
structure Inv (site : ℕ → ℝ) (d : List Entry) (hs : List Hop) : Prop where
  nodup : (d.map Prod.fst).Nodup
  closed : ∀ R ∈ d.map Prod.fst, neg R ∈ d.map Prod.fst
  keys : ∀ R, R ∈ d.map Prod.fst ↔ R = [0, 0, 0] ∨ ∃ h ∈ hs, R = h.R ∨ R = neg h.R
  first : ∃ m rest, d = ([0, 0, 0], m) :: rest
  val : ∀ φ a b, lin φ d a b = φ [0, 0, 0] * (if a = b then (site a : ℂ) else 0) + (hs.map fun h =>
    (if a = h.i ∧ b = h.j then φ h.R * h.t else 0) + (if a = h.j ∧ b = h.i then φ (neg h.R) * (starRingEnd ℂ) h.t else 0)).sum

/-- the insertion of the two keys -/
theorem insert_two {site : ℕ → ℝ} {d : List Entry} {hs : List Hop} (hI : Inv site d hs) (R : List ℤ) (hR : R ∉ d.map Prod.fst) :
    ∃ d1, insert (insert d (R, fun _ _ => 0)) (neg R, fun _ _ => 0) = d1 ∧ (d1.map Prod.fst).Nodup ∧
      (∀ S, S ∈ d1.map Prod.fst ↔ S ∈ d.map Prod.fst ∨ S = R ∨ S = neg R) ∧ (∃ m rest, d1 = ([0, 0, 0], m) :: rest) ∧ ∀ φ a b, lin φ d1 a b = lin φ d a b := by
  have hN : neg R ∉ d.map Prod.fst := fun h => hR (by have := hI.closed _ h; rwa [neg_neg'] at this)
  rw [insert_new (e := (R, fun _ _ => 0)) hR]
  obtain ⟨m, rest, hfirst⟩ := hI.first
  have hnd1 : ((d ++ [((R, fun _ _ => 0) : Entry)]).map Prod.fst).Nodup := by
    rw [List.map_append, List.nodup_append]
    refine ⟨hI.nodup, by simp, ?_⟩
    intro x hx y hy hxy
    simp at hy
    exact hR (by rw [← hy, ← hxy]; exact hx)
  by_cases hs0 : neg R = R
  · refine ⟨d ++ [(R, fun _ _ => 0)], ?_, hnd1, ?_, ⟨m, rest ++ [(R, fun _ _ => 0)], by rw [hfirst]; rfl⟩, ?_⟩
    · rw [hs0]
      unfold Wannier.insert
      rw [if_pos (by simp)]
      conv_rhs => rw [← List.map_id (d ++ [_])]
      apply List.map_congr_left
      intro e he
      split
      · rename_i h
        rw [List.mem_append, List.mem_singleton] at he
        rcases he with he | rfl
        · exfalso
          apply hR
          rw [List.mem_map]
          exact ⟨e, he, by simpa using h⟩
        · rfl
      · rfl
    · intro S
      rw [List.map_append, List.mem_append, hs0]
      simp
    · intro φ a b
      rw [lin_append]
      simp
  · have hN1 : neg R ∉ (d ++ [((R, fun _ _ => 0) : Entry)]).map Prod.fst := by
      rw [List.map_append, List.mem_append]
      simp only [List.map_cons, List.map_nil, List.mem_singleton]
      exact not_or.mpr ⟨hN, hs0⟩
    rw [insert_new hN1]
    refine ⟨_, rfl, ?_, ?_, ⟨m, rest ++ [(R, fun _ _ => 0)] ++ [(neg R, fun _ _ => 0)], by rw [hfirst]; rfl⟩, ?_⟩
    · rw [List.map_append, List.nodup_append]
      refine ⟨hnd1, by simp, ?_⟩
      intro x hx y hy hxy
      simp at hy
      exact hN1 (by rw [← hy, ← hxy]; exact hx)
    · intro S
      simp only [List.map_append, List.mem_append, List.map_cons, List.map_nil, List.mem_singleton, or_assoc]
    · intro φ a b
      rw [lin_append, lin_append]
      simp

theorem addAt_ok {n : ℕ} {d : List Entry} {R : List ℤ} {a b : ℕ} (x : ℂ) (hR : R ∈ d.map Prod.fst) (ha : a < n) (hb : b < n) :
    ∃ d', addAt n d R a b x = .ok d' ∧ ∀ m rest, d = ([0, 0, 0], m) :: rest → ∃ m' rest', d' = ([0, 0, 0], m') :: rest' := by
  unfold addAt
  rw [if_neg (by rw [(hasKey_iff d R).mpr hR]; simp), if_neg (by omega)]
  refine ⟨_, rfl, ?_⟩
  rintro m rest rfl
  rw [List.map_cons]
  split
  · exact ⟨_, _, rfl⟩
  · exact ⟨_, _, rfl⟩

theorem step_inv {n : ℕ} {site : ℕ → ℝ} {d : List Entry} {hs : List Hop} (hI : Inv site d hs) (h : Hop) (hi : h.i < n) (hj : h.j < n) :
    ∃ d', step n d h = .ok d' ∧ Inv site d' (hs ++ [h]) := by
  have key : ∃ d1, (if hasKey d h.R then d else insert (insert d (h.R, fun _ _ => 0)) (neg h.R, fun _ _ => 0)) = d1 ∧ (d1.map Prod.fst).Nodup ∧
      (∀ S, S ∈ d1.map Prod.fst ↔ S ∈ d.map Prod.fst ∨ S = h.R ∨ S = neg h.R) ∧ (∃ m rest, d1 = ([0, 0, 0], m) :: rest) ∧ ∀ φ a b, lin φ d1 a b = lin φ d a b := by
    by_cases hk : hasKey d h.R = true
    · rw [if_pos hk]
      have hm := (hasKey_iff d h.R).mp hk
      refine ⟨d, rfl, hI.nodup, ?_, hI.first, fun _ _ _ => rfl⟩
      intro S
      constructor
      · exact Or.inl
      · rintro (hS | rfl | rfl)
        · exact hS
        · exact hm
        · exact hI.closed _ hm
    · rw [if_neg hk]
      exact insert_two hI h.R ((hasKey_iff d h.R).not.mp hk)
  obtain ⟨d1, e1, nd1, k1, ⟨m, rest, f1⟩, v1⟩ := key
  obtain ⟨d2, h2, g2⟩ := addAt_ok (n := n) (a := h.i) (b := h.j) h.t ((k1 h.R).mpr (Or.inr (Or.inl rfl))) hi hj
  have kk2 := addAt_keys h2
  obtain ⟨d3, h3, g3⟩ := addAt_ok (n := n) (d := d2) (a := h.j) (b := h.i) ((starRingEnd ℂ) h.t)
    (by rw [kk2]; exact (k1 (neg h.R)).mpr (Or.inr (Or.inr rfl))) hj hi
  have kk3 := addAt_keys h3
  refine ⟨d3, ?_, ?_⟩
  · unfold step
    simp only
    rw [e1, h2]
    exact h3
  · have hkeys : ∀ S, S ∈ d3.map Prod.fst ↔ S ∈ d.map Prod.fst ∨ S = h.R ∨ S = neg h.R := by
      intro S
      rw [kk3, kk2]
      exact k1 S
    constructor
    · rw [kk3, kk2]; exact nd1
    · intro R hR
      rw [hkeys] at hR ⊢
      rcases hR with hR | rfl | rfl
      · exact Or.inl (hI.closed R hR)
      · exact Or.inr (Or.inr rfl)
      · exact Or.inr (Or.inl (neg_neg' _))
    · intro R
      rw [hkeys, hI.keys]
      constructor
      · rintro ((rfl | ⟨x, hx, hx2⟩) | hx)
        · exact Or.inl rfl
        · exact Or.inr ⟨x, by simp [hx], hx2⟩
        · exact Or.inr ⟨h, by simp, hx⟩
      · rintro (rfl | ⟨x, hx, hx2⟩)
        · exact Or.inl (Or.inl rfl)
        · rw [List.mem_append, List.mem_singleton] at hx
          rcases hx with hx | rfl
          · exact Or.inl (Or.inr ⟨x, hx, hx2⟩)
          · exact Or.inr hx2
    · obtain ⟨m2, r2, e2⟩ := g2 m rest f1
      exact g3 m2 r2 e2
    · intro φ a b
      rw [lin_addAt φ h3 (by rw [kk2]; exact nd1), lin_addAt φ h2 nd1, v1, hI.val, List.map_append, List.sum_append]
      simp only [List.map_cons, List.map_nil, List.sum_cons, List.sum_nil, add_zero]
      ring

theorem fill_inv {n : ℕ} {site : ℕ → ℝ} (hops hs : List Hop) {d : List Entry} (hI : Inv site d hs) (hb : ∀ h ∈ hops, h.i < n ∧ h.j < n) :
    ∃ d', fill n d hops = .ok d' ∧ Inv site d' (hs ++ hops) := by
  induction hops generalizing d hs with
  | nil => exact ⟨d, rfl, by rwa [List.append_nil]⟩
  | cons h hops ih =>
    obtain ⟨d1, h1, h2⟩ := step_inv (n := n) hI h (hb h (by simp)).1 (hb h (by simp)).2
    obtain ⟨d2, h3, h4⟩ := ih (hs ++ [h]) h2 fun x hx => hb x (by simp [hx])
    refine ⟨d2, ?_, ?_⟩
    · unfold fill
      rw [h1]
      exact h3
    · rwa [List.append_assoc, List.singleton_append] at h4

theorem fromPyth_inv (n : ℕ) (site : ℕ → ℝ) (hops : List Hop) (hb : ∀ h ∈ hops, h.i < n ∧ h.j < n) : ∃ d, fromPyth n site hops = .ok d ∧ Inv site d hops := by
  have h0 : Inv site [([0, 0, 0], fun a b => if a = b then (site a : ℂ) else 0)] [] := by
    constructor
    · simp
    · intro R hR
      simp at hR
      subst hR
      simp [neg]
    · intro R
      simp
    · exact ⟨_, _, rfl⟩
    · intro φ a b
      simp [lin]
  exact fill_inv hops [] h0 hb

theorem lin_indicator (d : List Entry) (hnd : (d.map Prod.fst).Nodup) (e : Entry) (he : e ∈ d) (a b : ℕ) : lin (fun R => if R = e.1 then 1 else 0) d a b = e.2 a b := by
  unfold lin
  induction d with
  | nil => simp at he
  | cons x d ih =>
    rw [List.map_cons, List.nodup_cons] at hnd
    rw [List.map_cons, List.sum_cons]
    rw [List.mem_cons] at he
    rcases he with rfl | he
    · have hz : (d.map fun x : Entry => (if x.1 = e.1 then (1 : ℂ) else 0) * x.2 a b).sum = 0 := by
        apply List.sum_eq_zero
        intro y hy
        rw [List.mem_map] at hy
        obtain ⟨z, hz, rfl⟩ := hy
        rw [if_neg, zero_mul]
        intro hc
        exact hnd.1 (hc ▸ List.mem_map_of_mem hz)
      rw [hz]
      simp
    · rw [ih hnd.2 he]
      simp only
      rw [if_neg, zero_mul, zero_add]
      intro hc
      exact hnd.1 (hc ▸ List.mem_map_of_mem he)

/-- **C143** the dictionary made from a pythTB model: each lattice vector once, zero and those of the hoppings with both signs,
each with its hopping matrix -/
theorem C143_pyth (n : ℕ) (site : ℕ → ℝ) (hops : List Hop) (hb : ∀ h ∈ hops, h.i < n ∧ h.j < n) : ∃ d, fromPyth n site hops = .ok d ∧
    (d.map Prod.fst).Nodup ∧ (∀ R, R ∈ d.map Prod.fst ↔ R = [0, 0, 0] ∨ ∃ h ∈ hops, R = h.R ∨ R = neg h.R) ∧
    ∀ e ∈ d, ∀ a b, e.2 a b = pythMatrix site hops e.1 a b := by
  obtain ⟨d, h1, h2⟩ := fromPyth_inv n site hops hb
  refine ⟨d, h1, h2.nodup, h2.keys, ?_⟩
  intro e he a b
  rw [← lin_indicator d h2.nodup e he, h2.val]
  unfold pythMatrix
  congr 1
  · by_cases h : e.1 = [0, 0, 0]
    · simp [h]
    · simp [h, Ne.symm h]
  · congr 1
    apply List.map_congr_left
    intro h _
    congr 1
    · by_cases h1 : e.1 = h.R
      · simp [h1]
      · simp [h1, Ne.symm h1]
    · by_cases h1 : e.1 = neg h.R
      · rw [h1]
        simp only [if_true, one_mul, true_and]
        by_cases ha : a = h.j <;> by_cases hb : b = h.i <;> simp [ha, hb]
      · simp [h1, Ne.symm h1]

theorem dotk_neg (k : ℕ → ℝ) (R : List ℤ) (n : ℕ) : dotk n k (neg R) = -dotk n k R := by
  unfold dotk neg
  rw [← Finset.sum_neg_distrib]
  apply Finset.sum_congr rfl
  intro i _
  have : (R.map fun x => -x).getD i 0 = -(R.getD i 0) := by
    rw [List.getD_eq_getElem?_getD, List.getElem?_map, List.getD_eq_getElem?_getD]
    cases R[i]? <;> simp
  rw [this]
  push_cast
  ring

/-- **C143** in three dimensions the Hamiltonian in momentum space is the one of the pythTB model -/
theorem C143_fourier (n : ℕ) (site : ℕ → ℝ) (hops : List Hop) (hb : ∀ h ∈ hops, h.i < n ∧ h.j < n) : ∃ d, fromPyth n site hops = .ok d ∧
    ∀ k a b, (ofDict 3 n d).fourier k a b = some (pythHamiltonian site hops k a b) := by
  obtain ⟨d, h1, h2⟩ := fromPyth_inv n site hops hb
  refine ⟨d, h1, ?_⟩
  intro k a b
  obtain ⟨m, rest, hf⟩ := h2.first
  have := toTB_fourier n d (by rw [hf]; simp) k a b
  rw [show ofDict 3 n d = toTB n d from rfl, this]
  congr 1
  have hv := h2.val (fun R => exp (2 * I * Real.pi * dotk 3 k R)) a b
  rw [show dictSum d k a b = lin (fun R => exp (2 * I * Real.pi * dotk 3 k R)) d a b from rfl, hv]
  unfold pythHamiltonian
  congr 1
  · have : dotk 3 k [0, 0, 0] = 0 := by simp [dotk, Finset.sum_range_succ]
    rw [this]
    simp
  · congr 1
    apply List.map_congr_left
    intro h _
    congr 1
    · rw [mul_comm]
    · rw [dotk_neg, map_mul, ← exp_conj]
      have : (starRingEnd ℂ) (2 * I * Real.pi * dotk 3 k h.R) = 2 * I * Real.pi * ((-dotk 3 k h.R : ℝ) : ℂ) := by
        simp only [map_mul, conj_I, conj_ofReal, map_ofNat]
        push_cast
        ring
      rw [this, mul_comm (exp _)]
      by_cases ha : a = h.j <;> by_cases hb : b = h.i <;> simp [ha, hb]

theorem pythMatrix_hermitian (site : ℕ → ℝ) (hops : List Hop) (R : List ℤ) (a b : ℕ) :
    pythMatrix site hops R a b = (starRingEnd ℂ) (pythMatrix site hops (neg R) b a) := by
  have hz : neg R = [0, 0, 0] ↔ R = [0, 0, 0] := by
    constructor
    · intro h
      rw [← neg_neg' R, h]
      simp [neg]
    · rintro rfl
      simp [neg]
  unfold pythMatrix
  rw [map_add, map_list_sum, List.map_map]
  congr 1
  · simp only [hz]
    by_cases h : R = [0, 0, 0] ∧ a = b
    · rw [if_pos h, if_pos ⟨h.1, h.2.symm⟩, conj_ofReal, h.2]
    · rw [if_neg h, if_neg (fun hc => h ⟨hc.1, hc.2.symm⟩), map_zero]
  · congr 1
    apply List.map_congr_left
    intro h _
    have h1 : neg R = neg h.R ↔ R = h.R := ⟨fun hh => by rw [← neg_neg' R, hh, neg_neg'], fun hh => by rw [hh]⟩
    have h2 : neg R = h.R ↔ R = neg h.R := ⟨fun hh => by rw [← hh, neg_neg'], fun hh => by rw [hh, neg_neg']⟩
    simp only [Function.comp, map_add, h1, h2]
    rw [add_comm]
    congr 1
    · by_cases hc : R = neg h.R ∧ b = h.i ∧ a = h.j
      · rw [if_pos hc, if_pos hc]
      · rw [if_neg hc, if_neg hc, map_zero]
    · by_cases hc : R = h.R ∧ a = h.i ∧ b = h.j
      · rw [if_pos hc, if_pos hc, conj_conj]
      · rw [if_neg hc, if_neg hc, map_zero]

/-- **C143** the constructor of the tight-binding Hamiltonian accepts each pythTB model in three dimensions -/
theorem C143_accepted (n : ℕ) (site : ℕ → ℝ) (hops : List Hop) (hb : ∀ h ∈ hops, h.i < n ∧ h.j < n) (hR : ∀ h ∈ hops, h.R.length = 3) :
    ∃ d, fromPyth n site hops = .ok d ∧ (ofDict 3 n d).construct = .ok := by
  obtain ⟨d, h1, hnd, hk, hv⟩ := C143_pyth n site hops hb
  refine ⟨d, h1, ?_⟩
  have hd : ∀ i (hi : i < d.length), (ofDict 3 n d).disp i = d[i].1 := by
    intro i hi
    unfold TB.disp ofDict
    rw [List.getD_eq_getElem _ _ (by simpa using hi), List.getElem_map]
  have hm : ∀ i (hi : i < d.length), (ofDict 3 n d).mat i = ⟨n, n, d[i].2⟩ := by
    intro i hi
    unfold TB.mat ofDict
    rw [List.getD_eq_getElem _ _ (by simpa using hi), List.getElem_map]
  have hlen : ∀ R ∈ d.map Prod.fst, R.length = 3 := by
    intro R hR'
    rcases (hk R).mp hR' with rfl | ⟨h, hh, rfl | rfl⟩
    · rfl
    · exact hR h hh
    · unfold neg; rw [List.length_map]; exact hR h hh
  rw [construct_ok]
  refine ⟨by simp [ofDict], ?_⟩
  intro i hi
  have hi' : i < d.length := by simpa [ofDict] using hi
  have hmem : d[i].1 ∈ d.map Prod.fst := List.mem_map_of_mem (List.getElem_mem hi')
  have hnegmem : neg d[i].1 ∈ d.map Prod.fst := by
    rw [hk] at hmem ⊢
    rcases hmem with h | ⟨h, hh, h' | h'⟩
    · left; rw [h]; simp [neg]
    · right; exact ⟨h, hh, Or.inr (by rw [h'])⟩
    · right; exact ⟨h, hh, Or.inl (by rw [h', neg_neg'])⟩
  unfold TB.check
  rw [if_neg (by rw [hd i hi', hlen _ hmem]; simp [ofDict]), if_neg (by rw [hm i hi']; simp [ofDict]), if_neg (by rw [hm i hi']; simp [ofDict])]
  have hdl : (ofDict 3 n d).displ.length = d.length := by simp [ofDict]
  cases hp : (ofDict 3 n d).partner i with
  | none =>
    exfalso
    unfold TB.partner at hp
    rw [List.find?_eq_none] at hp
    obtain ⟨e, he, he2⟩ := List.mem_map.mp hnegmem
    obtain ⟨j, hj, rfl⟩ := List.getElem_of_mem he
    refine hp j (by rw [hdl]; simpa using hj) ?_
    rw [decide_eq_true_iff, hd i hi', hd j hj, he2]
    exact (neg_neg' _).symm
  | some j =>
    simp only
    have hj1 := List.mem_of_find?_eq_some hp
    have hj2 := List.find?_some hp
    have hj : j < d.length := by rw [hdl] at hj1; simpa using hj1
    rw [decide_eq_true_iff, hd i hi', hd j hj] at hj2
    rw [if_neg (by rw [hm j hj]; simp [ofDict]), if_neg]
    rintro ⟨a, b, _, _, hgt⟩
    rw [hm i hi', hm j hj] at hgt
    simp only at hgt
    have e1 := hv d[i] (List.getElem_mem hi') a b
    have e2 := hv d[j] (List.getElem_mem hj) b a
    have e3 : d[j].1 = neg d[i].1 := by
      rw [hj2]
      exact (neg_neg' _).symm
    rw [e1, e2, e3, ← pythMatrix_hermitian, sub_self, norm_zero] at hgt
    norm_num at hgt

/-- **C143** a pythTB model of another dimension is always refused, because the on-site matrix has the key `(0, 0, 0)` -/
theorem C143_dimension (nd n : ℕ) (hnd : nd ≠ 3) (site : ℕ → ℝ) (hops : List Hop) (hb : ∀ h ∈ hops, h.i < n ∧ h.j < n) :
    ∃ d, fromPyth n site hops = .ok d ∧ (ofDict nd n d).construct = .exn := by
  obtain ⟨d, h1, h2⟩ := fromPyth_inv n site hops hb
  obtain ⟨m, rest, rfl⟩ := h2.first
  refine ⟨_, h1, ?_⟩
  unfold TB.construct
  rw [if_neg (by simp [ofDict])]
  have hl : (ofDict nd n (([0, 0, 0], m) :: rest)).displ.length = rest.length + 1 := by simp [ofDict]
  have hc : (ofDict nd n (([0, 0, 0], m) :: rest)).check 0 = .exn := by
    unfold TB.check
    rw [if_pos]
    simp only [TB.disp, ofDict, List.map_cons, List.getD_cons_zero, List.length_cons, List.length_nil]
    omega
  rw [hl, List.range_succ_eq_map]
  unfold TB.loop
  rw [hc]

/-! #### sympy -/

theorem axis_mid (m : ℕ) (i : ℤ) (h : |i| ≤ m) : axis (2 * m + 1) (i + m) = some (i + m).toNat ∧ (i + m).toNat < 2 * m + 1 ∧ (((i + m).toNat : ℕ) : ℤ) - m = i := by
  rw [abs_le] at h
  refine ⟨?_, by omega, by omega⟩
  unfold axis
  rw [if_pos]
  push_cast
  omega

/-- the position of a lattice vector in the array -/
def pos (mx my mz : ℕ) (R : List ℤ) : ℕ × ℕ × ℕ := ((R.getD 0 0 + mx).toNat, (R.getD 1 0 + my).toNat, (R.getD 2 0 + mz).toNat)

/-- the vectors are in the array -/
def Fits (mx my mz : ℕ) (R : List ℤ) : Prop := |R.getD 0 0| ≤ mx ∧ |R.getD 1 0| ≤ my ∧ |R.getD 2 0| ≤ mz

theorem pos_inj (mx my mz : ℕ) (R S : List ℤ) (hR : Fits mx my mz R) (hS : Fits mx my mz S) (lR : R.length = 3) (lS : S.length = 3)
    (h : pos mx my mz R = pos mx my mz S) : R = S := by
  simp only [pos, Prod.mk.injEq] at h
  obtain ⟨hR0, hR1, hR2⟩ := hR
  obtain ⟨hS0, hS1, hS2⟩ := hS
  rw [abs_le] at *
  match R, lR, S, lS with
  | [a, b, c], _, [a', b', c'], _ =>
    simp only [List.getD_cons_zero, List.getD_cons_succ] at *
    have : a = a' ∧ b = b' ∧ c = c' := by omega
    rw [this.1, this.2.1, this.2.2]

theorem sum_set (mx my mz : ℕ) (H : Cells) (ak : ℕ → ℝ) (x y z : ℕ) (hx : x < 2 * mx + 1) (hy : y < 2 * my + 1) (hz : z < 2 * mz + 1) (v : ℕ → ℕ → ℂ)
    (hH : ∀ a b, H x y z a b = 0) (a b : ℕ) :
    total mx my mz (fun x' y' z' a b => if x' = x ∧ y' = y ∧ z' = z then v a b else H x' y' z' a b) ak a b =
      total mx my mz H ak a b + v a b * exp (-I * ((ak 0 * ((x : ℤ) - mx : ℤ) + ak 1 * ((y : ℤ) - my : ℤ) + ak 2 * ((z : ℤ) - mz : ℤ) : ℝ) : ℂ)) := by
  unfold total
  have hone : ∀ (N p : ℕ) (hp : p < N) (f : ℕ → ℂ), ∑ q ∈ Finset.range N, (if q = p then f q else 0) = f p := by
    intro N p hp f
    rw [Finset.sum_ite_eq']
    simp [hp]
  have key : ∀ x' y' z', (if x' = x ∧ y' = y ∧ z' = z then v a b else H x' y' z' a b) *
      exp (-I * ((ak 0 * ((x' : ℤ) - mx : ℤ) + ak 1 * ((y' : ℤ) - my : ℤ) + ak 2 * ((z' : ℤ) - mz : ℤ) : ℝ) : ℂ)) =
      H x' y' z' a b * exp (-I * ((ak 0 * ((x' : ℤ) - mx : ℤ) + ak 1 * ((y' : ℤ) - my : ℤ) + ak 2 * ((z' : ℤ) - mz : ℤ) : ℝ) : ℂ)) +
      (if x' = x then if y' = y then if z' = z then
        v a b * exp (-I * ((ak 0 * ((x' : ℤ) - mx : ℤ) + ak 1 * ((y' : ℤ) - my : ℤ) + ak 2 * ((z' : ℤ) - mz : ℤ) : ℝ) : ℂ)) else 0 else 0 else 0) := by
    intro x' y' z'
    by_cases h1 : x' = x
    · by_cases h2 : y' = y
      · by_cases h3 : z' = z
        · subst h1 h2 h3
          simp [hH]
        · simp [h3]
      · simp [h2]
    · simp [h1]
  simp only [key, Finset.sum_add_distrib]
  congr 1
  have h3 : ∀ x' y', ∑ z' ∈ Finset.range (2 * mz + 1), (if x' = x then if y' = y then if z' = z then
      v a b * exp (-I * ((ak 0 * ((x' : ℤ) - mx : ℤ) + ak 1 * ((y' : ℤ) - my : ℤ) + ak 2 * ((z' : ℤ) - mz : ℤ) : ℝ) : ℂ)) else 0 else 0 else 0) =
      if x' = x then if y' = y then v a b * exp (-I * ((ak 0 * ((x' : ℤ) - mx : ℤ) + ak 1 * ((y' : ℤ) - my : ℤ) + ak 2 * ((z : ℤ) - mz : ℤ) : ℝ) : ℂ)) else 0 else 0 := by
    intro x' y'
    by_cases h1 : x' = x
    · by_cases h2 : y' = y
      · simp only [h1, h2, if_true]
        exact hone _ z hz _
      · simp [h2]
    · simp [h1]
  simp only [h3]
  have h2 : ∀ x', ∑ y' ∈ Finset.range (2 * my + 1), (if x' = x then if y' = y then
      v a b * exp (-I * ((ak 0 * ((x' : ℤ) - mx : ℤ) + ak 1 * ((y' : ℤ) - my : ℤ) + ak 2 * ((z : ℤ) - mz : ℤ) : ℝ) : ℂ)) else 0 else 0) =
      if x' = x then v a b * exp (-I * ((ak 0 * ((x' : ℤ) - mx : ℤ) + ak 1 * ((y : ℤ) - my : ℤ) + ak 2 * ((z : ℤ) - mz : ℤ) : ℝ) : ℂ)) else 0 := by
    intro x'
    by_cases h1 : x' = x
    · simp only [h1, if_true]
      exact hone _ y hy _
    · simp [h1]
  simp only [h2]
  exact hone _ x hx _

theorem place_total (round : ℂ → ℂ) (mx my mz : ℕ) (d : List Entry) (hnd : (d.map Prod.fst).Nodup) (hl : ∀ e ∈ d, e.1.length = 3)
    (hf : ∀ e ∈ d, Fits mx my mz e.1) (H : Cells) (hH : ∀ e ∈ d, ∀ a b, H (pos mx my mz e.1).1 (pos mx my mz e.1).2.1 (pos mx my mz e.1).2.2 a b = 0) :
    ∃ H', place round mx my mz H d = .ok H' ∧ ∀ ak a b, total mx my mz H' ak a b = total mx my mz H ak a b +
      (d.map fun e => round (e.2 a b) * exp (-I * ((ak 0 * e.1.getD 0 0 + ak 1 * e.1.getD 1 0 + ak 2 * e.1.getD 2 0 : ℝ) : ℂ))).sum := by
  induction d generalizing H with
  | nil => exact ⟨H, rfl, fun ak a b => by simp⟩
  | cons e d ih =>
    rw [List.map_cons, List.nodup_cons] at hnd
    obtain ⟨f0, f1, f2⟩ := hf e (by simp)
    obtain ⟨x1, x2, x3⟩ := axis_mid mx _ f0
    obtain ⟨y1, y2, y3⟩ := axis_mid my _ f1
    obtain ⟨z1, z2, z3⟩ := axis_mid mz _ f2
    obtain ⟨H', h1, h2⟩ := ih hnd.2 (fun x hx => hl x (by simp [hx])) (fun x hx => hf x (by simp [hx]))
      (fun x' y' z' a b => if x' = (e.1.getD 0 0 + mx).toNat ∧ y' = (e.1.getD 1 0 + my).toNat ∧ z' = (e.1.getD 2 0 + mz).toNat then round (e.2 a b) else H x' y' z' a b) (by
        intro x hx a b
        rw [if_neg]
        · exact hH x (by simp [hx]) a b
        · rintro ⟨p1, p2, p3⟩
          have : x.1 = e.1 := pos_inj mx my mz x.1 e.1 (hf x (by simp [hx])) ⟨f0, f1, f2⟩ (hl x (by simp [hx])) (hl e (by simp)) (by
            simp only [pos] at p1 p2 p3 ⊢
            rw [p1, p2, p3])
          exact hnd.1 (this ▸ List.mem_map_of_mem hx))
    refine ⟨H', ?_, ?_⟩
    · unfold place
      rw [x1, y1, z1]
      exact h1
    · intro ak a b
      rw [h2 ak a b, sum_set mx my mz H ak _ _ _ x2 y2 z2 (fun a b => round (e.2 a b)) (fun a b => hH e (by simp) a b), x3, y3, z3, List.map_cons, List.sum_cons]
      ring

theorem max_abs (d : List Entry) (hcl : ∀ R ∈ d.map Prod.fst, neg R ∈ d.map Prod.fst) (hne : d ≠ []) (c : ℕ) :
    ∃ m, (d.map fun e => e.1.getD c 0).max? = some m ∧ 0 ≤ m ∧ ∀ e ∈ d, |e.1.getD c 0| ≤ (m.toNat : ℤ) := by
  cases hm : (d.map fun e : Entry => e.1.getD c 0).max? with
  | none =>
    rw [List.max?_eq_none_iff] at hm
    exact absurd (List.map_eq_nil_iff.mp hm) hne
  | some m =>
    rw [List.max?_eq_some_iff] at hm
    have hle : ∀ e ∈ d, e.1.getD c 0 ≤ m := fun e he => hm.2 _ (List.mem_map_of_mem (f := fun e : Entry => e.1.getD c 0) he)
    have hge : ∀ e ∈ d, -(e.1.getD c 0) ≤ m := by
      intro e he
      obtain ⟨e', he', h'⟩ := List.mem_map.mp (hcl e.1 (List.mem_map_of_mem he))
      have : e'.1.getD c 0 = -(e.1.getD c 0) := by
        rw [h']
        unfold neg
        rw [List.getD_eq_getElem?_getD, List.getElem?_map, List.getD_eq_getElem?_getD]
        cases e.1[c]? <;> simp
      rw [← this]
      exact hle e' he'
    have h0 : 0 ≤ m := by
      obtain ⟨e, he⟩ := List.exists_mem_of_ne_nil d hne
      have := hle e he
      have := hge e he
      omega
    refine ⟨m, rfl, h0, ?_⟩
    intro e he
    rw [abs_le]
    have := hle e he
    have := hge e he
    omega

/-- **C143** three dimensions: the formula is the sum over the lattice vectors of the rounded matrices with the phase
`exp(-i R·ak)` -/
theorem C143_sympy3 (round : ℂ → ℂ) (d : List Entry) (hne : d ≠ []) (hnd : (d.map Prod.fst).Nodup) (hl : ∀ R ∈ d.map Prod.fst, R.length = 3)
    (hcl : ∀ R ∈ d.map Prod.fst, neg R ∈ d.map Prod.fst) : ∃ H, toSympy 3 3 round d = .ok H ∧
      ∀ ak a b, H ak a b = (d.map fun e => round (e.2 a b) * exp (-I * ((ak 0 * e.1.getD 0 0 + ak 1 * e.1.getD 1 0 + ak 2 * e.1.getD 2 0 : ℝ) : ℂ))).sum := by
  obtain ⟨mx, h1, p1, a1⟩ := max_abs d hcl hne 0
  obtain ⟨my, h2, p2, a2⟩ := max_abs d hcl hne 1
  obtain ⟨mz, h3, p3, a3⟩ := max_abs d hcl hne 2
  obtain ⟨H, hH1, hH2⟩ := place_total round mx.toNat my.toNat mz.toNat d hnd (fun e he => hl _ (List.mem_map_of_mem he))
    (fun e he => ⟨a1 e he, a2 e he, a3 e he⟩) (fun _ _ _ _ _ => 0) (fun _ _ _ _ => rfl)
  refine ⟨total mx.toNat my.toNat mz.toNat H, ?_, ?_⟩
  · unfold toSympy
    rw [if_pos (by simp)]
    simp only [show (3 : ℕ) ≠ 2 by norm_num, if_false]
    rw [h1, h2, h3]
    simp only
    rw [if_neg (by omega), hH1]
    rfl
  · intro ak a b
    rw [hH2 ak a b]
    have : total mx.toNat my.toNat mz.toNat (fun _ _ _ _ _ => 0) ak a b = 0 := by simp [total]
    rw [this, zero_add]

/-- **C143** two dimensions -/
theorem C143_sympy2 (round : ℂ → ℂ) (d : List Entry) (hne : d ≠ []) (hnd : (d.map Prod.fst).Nodup) (hl : ∀ R ∈ d.map Prod.fst, R.length = 2)
    (hcl : ∀ R ∈ d.map Prod.fst, neg R ∈ d.map Prod.fst) : ∃ H, toSympy 2 2 round d = .ok H ∧
      ∀ ak a b, H ak a b = (d.map fun e => round (e.2 a b) * exp (-I * ((ak 0 * e.1.getD 0 0 + ak 1 * e.1.getD 1 0 : ℝ) : ℂ))).sum := by
  have hkeys : (d.map fun e : Entry => ((e.1 ++ [0], e.2) : Entry)).map Prod.fst = (d.map Prod.fst).map fun R => R ++ [0] := by
    rw [List.map_map, List.map_map]
    rfl
  obtain ⟨H, hH1, hH2⟩ := C143_sympy3 round (d.map fun e => (e.1 ++ [0], e.2)) (by simpa using hne)
    (by rw [hkeys]; exact hnd.map fun x y h => List.append_cancel_right h)
    (by
      rw [hkeys]
      intro R hR
      obtain ⟨S, hS, rfl⟩ := List.mem_map.mp hR
      rw [List.length_append, hl S hS]
      rfl)
    (by
      rw [hkeys]
      intro R hR
      obtain ⟨S, hS, rfl⟩ := List.mem_map.mp hR
      rw [List.mem_map]
      exact ⟨neg S, hcl S hS, by simp [neg]⟩)
  refine ⟨H, ?_, ?_⟩
  · rw [← hH1]
    unfold toSympy
    simp
  · intro ak a b
    rw [hH2 ak a b, List.map_map]
    congr 1
    apply List.map_congr_left
    intro e he
    have hlen := hl e.1 (List.mem_map_of_mem he)
    match h : e.1, hlen with
    | [x, y], _ => simp [Function.comp, h]

/-- **C143** without rounding, the formula at `a_i k = 2 π k_i` is the Hamiltonian of the library at `-k` -/
theorem C143_sympy_fourier (n : ℕ) (d : List Entry) (hne : d ≠ []) (hnd : (d.map Prod.fst).Nodup) (hl : ∀ R ∈ d.map Prod.fst, R.length = 3)
    (hcl : ∀ R ∈ d.map Prod.fst, neg R ∈ d.map Prod.fst) : ∃ H, toSympy 3 3 (fun x => x) d = .ok H ∧
      ∀ (k : ℕ → ℝ) (a b : ℕ), some (H (fun i => 2 * Real.pi * k i) a b) = (ofDict 3 n d).fourier (fun i => -k i) a b := by
  obtain ⟨H, h1, h2⟩ := C143_sympy3 (fun x => x) d hne hnd hl hcl
  refine ⟨H, h1, ?_⟩
  intro k a b
  rw [show ofDict 3 n d = toTB n d from rfl, toTB_fourier n d hne, h2]
  unfold dictSum
  congr 2
  apply List.map_congr_left
  intro e _
  rw [mul_comm]
  congr 2
  simp only [dotk, Finset.sum_range_succ, Finset.range_zero, Finset.sum_empty, zero_add]
  push_cast
  ring

/-- **C143** the numerical form: the momentum in Cartesian coordinates; other shapes of the unit vectors, for instance one
dimension, are refused -/
theorem C143_numerical (round : ℂ → ℂ) (units : ℕ → ℕ → ℝ) (d : List Entry) (r c : ℕ) :
    (∀ H, toSympy r c round d = .ok H → toSympyNumerical r c round units d = .ok fun k => H fun i => units i 0 * k 0 + units i 1 * k 1 + units i 2 * k 2) ∧
    (¬ (r = 2 ∧ c = 2) → ¬ (r = 3 ∧ c = 3) → toSympyNumerical r c round units d = .error .value) := by
  constructor
  · intro H h
    unfold toSympyNumerical
    rw [h]
    simp only [bind, Except.bind, Finset.sum_range_succ, Finset.range_zero, Finset.sum_empty, zero_add]
  · intro h1 h2
    unfold toSympyNumerical toSympy
    rw [if_neg (not_or.mpr ⟨h1, h2⟩)]
    rfl

/-! ### Examples -/

/-- a model with two orbitals, a hopping inside the cell and a complex one to the next cell, given twice with both signs -/
noncomputable def model : List Hop := [⟨3, 0, 1, [0, 0, 0]⟩, ⟨I, 0, 1, [1, 0, 0]⟩, ⟨2, 1, 0, [-1, 0, 0]⟩]

example : pythMatrix (fun a => a) model [1, 0, 0] 0 1 = I + 2 := by
  simp [pythMatrix, model, neg]
  exact map_ofNat _ 2

example : ∃ d, fromPyth 2 (fun a => a) model = .ok d ∧ (ofDict 3 2 d).construct = .ok :=
  C143_accepted 2 _ model (by simp [model]) (by simp [model])

example : ∃ d, fromPyth 2 (fun a => a) model = .ok d ∧ (ofDict 2 2 d).construct = .exn :=
  C143_dimension 2 2 (by norm_num) _ model (by simp [model])

/-- a hopping `i` to the next cell -/
noncomputable def ring : List Entry := [([1, 0, 0], fun _ _ => I), ([-1, 0, 0], fun _ _ => -I)]

/-- **C143** the formula of sympy and the Hamiltonian of the library differ: for the hopping `i`, at `k = 1/4`, `H(k) = -2` and the
formula gives `2` -/
theorem C143_sign_witness : ∃ H, toSympy 3 3 (fun x => x) ring = .ok H ∧ H (fun i => 2 * Real.pi * if i = 0 then 1 / 4 else 0) 0 0 = 2 ∧
    (ofDict 3 1 ring).fourier (fun i => if i = 0 then 1 / 4 else 0) 0 0 = some (-2) := by
  have hpi : exp (2 * I * Real.pi * ((1 / 4 : ℝ) : ℂ)) = I := by
    rw [show 2 * I * Real.pi * ((1 / 4 : ℝ) : ℂ) = Real.pi / 2 * I by push_cast; ring]
    exact exp_pi_div_two_mul_I
  have hpi2 : exp (2 * I * Real.pi * ((-(1 / 4) : ℝ) : ℂ)) = -I := by
    rw [show 2 * I * Real.pi * ((-(1 / 4) : ℝ) : ℂ) = -(2 * I * Real.pi * ((1 / 4 : ℝ) : ℂ)) by push_cast; ring, exp_neg, hpi, inv_I]
  have hne : ring ≠ [] := by simp [ring]
  obtain ⟨H, h1, h2⟩ := C143_sympy_fourier 1 ring hne (by simp [ring]) (by simp [ring]) (by simp [ring, neg])
  have hsum : ∀ k : ℕ → ℝ, dictSum ring k 0 0 = exp (2 * I * Real.pi * ((k 0 : ℝ) : ℂ)) * I + exp (2 * I * Real.pi * ((-k 0 : ℝ) : ℂ)) * (-I) := by
    intro k
    simp [dictSum, ring, dotk, Finset.sum_range_succ]
  refine ⟨H, h1, ?_, ?_⟩
  · have := h2 (fun i => if i = 0 then 1 / 4 else 0) 0 0
    rw [show ofDict 3 1 ring = toTB 1 ring from rfl, toTB_fourier 1 ring hne] at this
    rw [Option.some.inj this, hsum]
    simp only [if_true, neg_neg]
    rw [hpi, hpi2]
    simp
    norm_num
  · rw [show ofDict 3 1 ring = toTB 1 ring from rfl, toTB_fourier 1 ring hne, hsum]
    simp only [if_true]
    rw [hpi, hpi2]
    simp
    norm_num

/-- two dimensions: a square lattice with hopping 1 in the first direction -/
example : ∃ H, toSympy 2 2 (fun x => x) [([1, 0], fun _ _ => 1), ([-1, 0], fun _ _ => 1)] = .ok H ∧ H (fun _ => 0) 0 0 = 2 := by
  obtain ⟨H, h1, h2⟩ := C143_sympy2 (fun x => x) [([1, 0], fun _ _ => 1), ([-1, 0], fun _ _ => 1)] (by simp) (by simp) (by simp) (by simp [neg])
  refine ⟨H, h1, ?_⟩
  rw [h2]
  norm_num

/-- one dimension is refused -/
example (units : ℕ → ℕ → ℝ) : toSympyNumerical 1 1 (fun x => x) units [([1], fun _ _ => 1), ([-1], fun _ _ => 1)] = .error .value :=
  (C143_numerical _ units _ 1 1).2 (by norm_num) (by norm_num)

end Verif.TBConvert
