import Verif.Operators.Props
import Verif.Hilbert.FopsProps
import Verif.Utility.RealOrComplex
import Mathlib.Data.Char
import Mathlib.Data.Sum.Order
import Mathlib.Data.List.Lex
import Mathlib.Order.Basic

/-!
# Property C07: archive of operators

Source: `/repo/c++/triqs/operators/many_body_operator.cpp:60-174`, on top of the archive of
`fundamental_operator_set` (`Verif.Fops`) and of `real_or_complex` coefficients (`Verif.RoC`).
The HDF5 layer returns the stored records and the stored attribute.
-/

namespace Verif.Operators
open Verif.Fops (Comp Fops)

/-! ## Model -/

/-- position in `std::variant<long, std::string>`: integers before strings -/
def compKey : Comp → Lex (ℤ ⊕ List Char)
  | .int n => toLex (.inl n)
  | .str s => toLex (.inr s)

theorem compKey_injective : Function.Injective compKey := by
  intro a b h
  cases a <;> cases b <;> simp_all [compKey]

/-- ordering of `std::variant<long, std::string>` (by alternative, then by value) -/
instance : LinearOrder Comp := LinearOrder.lift' compKey compKey_injective

/-- `h5_monomial`, many_body_operator.cpp:67-71. -/
structure H5Mono where
  isReal : Bool
  re : ℝ
  im : ℝ
  ops : List Int      -- `long op_indices[4]`

/-- what a dataset contains: the records and the attribute, many_body_operator.cpp:108-126 -/
structure H5Op where
  records : List H5Mono
  attr : List (List (List Char))

/-- the loop many_body_operator.cpp:102-105: signed numbers of the factors; `none` when a label is
unknown (exception). -/
def encodeMono {ι : Type} [LinearOrder ι] (f : Fops ι) : Mono ι → Option (List Int)
  | [] => some []
  | x :: xs => match Verif.Fops.position f x.idx, encodeMono f xs with
    | some p, some r => some ((if x.dagger then (p : Int) + 1 else - ((p : Int) + 1)) :: r)
    | _, _ => none

/-- one iteration of the loop of `h5_write`, many_body_operator.cpp:97-107. -/
noncomputable def encodeTerm {ι : Type} [LinearOrder ι] (f : Fops ι) (m : Mono ι) (c : RoC.RoC) : Option H5Mono :=
  if m.length > 4 then none
  else (encodeMono f m).map (fun l => ⟨c.isReal, c.x.re, c.x.im, l ++ List.replicate (4 - l.length) 0⟩)

noncomputable def encodeTerms {ι : Type} [LinearOrder ι] (f : Fops ι) : MMap ι RoC.RoC → Option (List H5Mono)
  | [] => some []
  | e :: es => match encodeTerm f e.1 e.2, encodeTerms f es with
    | some y, some ys => some (y :: ys)
    | _, _ => none

/-- `h5_write`, many_body_operator.cpp:88-127; `w` is the padding width of the string attribute. -/
noncomputable def h5Write (w : Nat) (op : MMap (List Comp) RoC.RoC) (f : Fops (List Comp)) : Option H5Op :=
  (encodeTerms f op).map (fun r => ⟨r, Verif.Fops.pad w (Verif.Fops.encode f)⟩)

/-- the loop many_body_operator.cpp:165-168: `int i` narrows the stored `long`; reading past the
end of the table is undefined (`none`). -/
def decodeOps {ι : Type} (f : Fops ι) : List Int → Option (Mono ι)
  | [] => some []
  | l :: ls =>
    let i := Verif.Fops.toInt32 l
    if i = 0 then some []
    else match f[i.natAbs - 1]?, decodeOps f ls with
      | some x, some r => some (⟨decide (i > 0), x⟩ :: r)
      | _, _ => none

/-- many_body_operator.cpp:170. -/
noncomputable def decodeCoef (y : H5Mono) : RoC.RoC :=
  if y.isReal then RoC.ofReal y.re else RoC.ofComplex ⟨y.re, y.im⟩

/-- the loop many_body_operator.cpp:163-172; `op` is the operator read into. -/
noncomputable def decodeTerms {ι : Type} [LinearOrder ι] (f : Fops ι) : List H5Mono → MMap ι RoC.RoC → Option (MMap ι RoC.RoC)
  | [], op => some op
  | y :: ys, op => match decodeOps f y.ops with
    | none => none
    | some m => decodeTerms f ys (insertKeep m (decodeCoef y) op)

/-- `h5_read`, many_body_operator.cpp:133-174. -/
noncomputable def h5Read (a : H5Op) (target : MMap (List Comp) RoC.RoC) :
    Option (MMap (List Comp) RoC.RoC × Fops (List Comp)) :=
  match Verif.Fops.decode a.attr with
  | none => none
  | some f => (decodeTerms f a.records target).map (fun op => (op, f))

/-! ## Proofs -/

section
variable {ι : Type} [LinearOrder ι]

theorem encodeMono_length (f : Fops ι) : ∀ (m : Mono ι) (l : List Int), encodeMono f m = some l → l.length = m.length
  | [], l, h => by simp [encodeMono] at h; simp [h]
  | x :: xs, l, h => by
    unfold encodeMono at h
    split at h
    · rename_i p r _ hr
      simp at h; subst h
      simp [encodeMono_length f xs r hr]
    · cases h

theorem encodeMono_some (f : Fops ι) (m : Mono ι) (h : ∀ x ∈ m, x.idx ∈ f) : ∃ l, encodeMono f m = some l := by
  induction m with
  | nil => exact ⟨[], rfl⟩
  | cons x m ih =>
    obtain ⟨l, hl⟩ := ih (fun y hy => h y (by simp [hy]))
    cases hp : Verif.Fops.position f x.idx with
    | none => exact absurd (h x (by simp)) (Verif.Fops.find_eq_none.mp hp)
    | some p => exact ⟨(if x.dagger then (p : Int) + 1 else - ((p : Int) + 1)) :: l, by simp only [encodeMono, hp, hl]⟩

theorem decodeOps_encode (f : Fops ι) (hf : f.length < 2 ^ 31) (k : Nat) : ∀ (m : Mono ι) (l : List Int),
    encodeMono f m = some l → decodeOps f (l ++ List.replicate k 0) = some m
  | [], l, h => by
    simp [encodeMono] at h; subst h
    cases k with
    | zero => rfl
    | succ k => simp [List.replicate_succ, decodeOps, Verif.Fops.toInt32]
  | x :: xs, l, h => by
    unfold encodeMono at h
    split at h
    · rename_i p r hp hr
      simp only [Option.some.injEq] at h; subst h
      have ih := decodeOps_encode f hf k xs r hr
      have hg := Verif.Fops.find_eq_some hp
      have hlt := (List.getElem?_eq_some_iff.mp hg).1
      obtain ⟨d, ix⟩ := x
      cases d
      · have e : Verif.Fops.toInt32 (-((p : Int) + 1)) = -((p : Int) + 1) := by
          simp only [Verif.Fops.toInt32]; omega
        have e1 : (-((p : Int) + 1)).natAbs - 1 = p := by omega
        have e2 : ¬ (-((p : Int) + 1) = 0) := by omega
        have e3 : ¬ (-((p : Int) + 1) > 0) := by omega
        simp only [Bool.false_eq_true, if_false, List.cons_append, decodeOps, e, e1, e2, hg, ih, e3,
          decide_false]
      · have e : Verif.Fops.toInt32 ((p : Int) + 1) = (p : Int) + 1 := by
          simp only [Verif.Fops.toInt32]; omega
        have e1 : ((p : Int) + 1).natAbs - 1 = p := by omega
        have e2 : ¬ ((p : Int) + 1 = 0) := by omega
        have e3 : ((p : Int) + 1 > 0) := by omega
        simp only [if_true, List.cons_append, decodeOps, e, e1, e2, if_false, hg, ih, e3, decide_true]
    · cases h

/-- coefficients that can occur: flagged real only with zero imaginary part (C61) -/
def CoefOK (c : RoC.RoC) : Prop := c.isReal = true → c.x.im = 0

theorem decodeCoef_encode (c : RoC.RoC) (h : CoefOK c) (l : List Int) :
    decodeCoef ⟨c.isReal, c.x.re, c.x.im, l⟩ = c := by
  obtain ⟨r, x⟩ := c
  unfold decodeCoef
  cases r
  · simp [RoC.ofComplex]
  · have : x.im = 0 := h rfl
    simp only [if_true, RoC.ofReal]
    congr 1
    apply Complex.ext <;> simp [this]

theorem insertKeep_last {R : Type} (m : Mono ι) (c : R) (t : MMap ι R) (h : ∀ e ∈ t, monoLt e.1 m = true) :
    insertKeep m c t = t ++ [(m, c)] := by
  induction t with
  | nil => rfl
  | cons e t ih =>
    have h1 := h e (by simp)
    have h2 : m ≠ e.1 := fun he => by rw [he, monoLt_irrefl] at h1; cases h1
    have h3 : ¬ monoLt m e.1 = true := fun h3 => by
      have := monoLt_trans h1 h3; rw [monoLt_irrefl] at this; cases this
    obtain ⟨m', c'⟩ := e
    simp only [insertKeep, h2, if_false, h3, List.cons_append, ih (fun e he => h e (by simp [he]))]
    simp

theorem decodeTerms_encode (f : Fops ι) (hf : f.length < 2 ^ 31) : ∀ (op : MMap ι RoC.RoC) (ys : List H5Mono) (t : MMap ι RoC.RoC),
    encodeTerms f op = some ys → (∀ e ∈ op, CoefOK e.2) →
    (t ++ op).Pairwise (fun e f => monoLt e.1 f.1 = true) → decodeTerms f ys t = some (t ++ op)
  | [], ys, t, h, _, _ => by simp [encodeTerms] at h; subst h; simp [decodeTerms]
  | e :: op, ys, t, h, hc, hs => by
    unfold encodeTerms at h
    split at h
    · rename_i y ys' hy hys
      simp only [Option.some.injEq] at h; subst h
      unfold encodeTerm at hy
      split at hy
      · cases hy
      · cases hl : encodeMono f e.1 with
        | none => rw [hl] at hy; cases hy
        | some l =>
          rw [hl] at hy
          simp only [Option.map_some, Option.some.injEq] at hy
          subst hy
          simp only [decodeTerms, decodeOps_encode f hf _ e.1 l hl]
          rw [decodeCoef_encode e.2 (hc e (by simp))]
          have hlast : ∀ e' ∈ t, monoLt e'.1 e.1 = true := by
            intro e' he'
            rw [List.pairwise_append] at hs
            exact hs.2.2 e' he' e (by simp)
          rw [insertKeep_last e.1 e.2 t hlast]
          have := decodeTerms_encode f hf op ys' (t ++ [(e.1, e.2)]) hys (fun e he => hc e (by simp [he])) (by simpa using hs)
          simpa using this
    · cases h

theorem encodeTerms_some (f : Fops ι) (op : MMap ι RoC.RoC) :
    (∃ ys, encodeTerms f op = some ys) ↔ ∀ e ∈ op, e.1.length ≤ 4 ∧ ∀ x ∈ e.1, x.idx ∈ f := by
  induction op with
  | nil => simp [encodeTerms]
  | cons e op ih =>
    have hterm : (∃ y, encodeTerm f e.1 e.2 = some y) ↔ e.1.length ≤ 4 ∧ ∀ x ∈ e.1, x.idx ∈ f := by
      constructor
      · rintro ⟨y, hy⟩
        unfold encodeTerm at hy
        split at hy
        · cases hy
        · rename_i hlen
          refine ⟨by omega, ?_⟩
          cases hl : encodeMono f e.1 with
          | none => rw [hl] at hy; cases hy
          | some l =>
            have : ∀ (m : Mono ι) (l : List Int), encodeMono f m = some l → ∀ x ∈ m, x.idx ∈ f := by
              intro m
              induction m with
              | nil => intro _ _ x hx; cases hx
              | cons z m ih =>
                intro l hl x hx
                unfold encodeMono at hl
                split at hl
                · rename_i p r hp hr
                  rcases List.mem_cons.mp hx with rfl | hx
                  · exact List.mem_of_getElem? (Verif.Fops.find_eq_some hp)
                  · exact ih r hr x hx
                · cases hl
            exact this e.1 l hl
      · rintro ⟨hlen, hmem⟩
        obtain ⟨l, hl⟩ := encodeMono_some f e.1 hmem
        exact ⟨_, by unfold encodeTerm; rw [if_neg (by omega), hl]; rfl⟩
    rw [List.forall_mem_cons, ← hterm, ← ih]
    constructor
    · rintro ⟨ys, h⟩
      unfold encodeTerms at h
      split at h
      · rename_i y ys' h1 h2; exact ⟨⟨y, h1⟩, ⟨ys', h2⟩⟩
      · cases h
    · rintro ⟨⟨y, h1⟩, ⟨ys, h2⟩⟩
      exact ⟨y :: ys, by simp only [encodeTerms, h1, h2]⟩
end

/-! ## C07 -/

/-- **C07.** Let the operator be stored in increasing monomial order with sound coefficients (as the
container guarantees, C03/C61) and the labels be representable (C11). Writing succeeds exactly when
every monomial has at most four factors and all its labels belong to the operator set; then reading
into a fresh operator returns exactly the same operator and operator set. -/
theorem C07_operator_archive_round_trip (w : Nat) (op : MMap (List Comp) RoC.RoC) (f : Fops (List Comp))
    (hs : op.Pairwise (fun e f => monoLt e.1 f.1 = true)) (hc : ∀ e ∈ op, CoefOK e.2)
    (hf : f.length < 2 ^ 31) (hr : ∀ ix ∈ f, ∀ c ∈ ix, Verif.Fops.Representable c) :
    ((∃ a, h5Write w op f = some a) ↔ ∀ e ∈ op, e.1.length ≤ 4 ∧ ∀ x ∈ e.1, x.idx ∈ f) ∧
    ∀ a, h5Write w op f = some a → h5Read a [] = some (op, f) := by
  have key := encodeTerms_some f op
  constructor
  · rw [← key]
    constructor
    · rintro ⟨a, h⟩
      unfold h5Write at h
      cases he : encodeTerms f op with
      | none => rw [he] at h; cases h
      | some ys => exact ⟨ys, rfl⟩
    · rintro ⟨ys, h⟩
      exact ⟨_, by unfold h5Write; rw [h]; rfl⟩
  · intro a h
    unfold h5Write at h
    cases he : encodeTerms f op with
    | none => rw [he] at h; cases h
    | some ys =>
      rw [he] at h
      simp only [Option.map_some, Option.some.injEq] at h
      subst h
      simp only [h5Read, Verif.Fops.C11_archive_round_trip_partial f w hr]
      rw [decodeTerms_encode f hf op ys [] he hc (by simpa using hs)]
      rfl

/-- labels `["up", 0]`, `["dn", 0]` and the operator `2 c†_dn c_up + i c†_dn c†_up c_up c_dn` -/
noncomputable def exArchiveOp : MMap (List Comp) RoC.RoC :=
  [([⟨true, [.str ['d'], .int 0]⟩, ⟨false, [.str ['u'], .int 0]⟩], RoC.ofReal 2),
   ([⟨true, [.str ['d'], .int 0]⟩, ⟨true, [.str ['u'], .int 0]⟩, ⟨false, [.str ['u'], .int 0]⟩,
     ⟨false, [.str ['d'], .int 0]⟩], RoC.ofComplex Complex.I)]
def exArchiveFops : Fops (List Comp) := [[.str ['u'], .int 0], [.str ['d'], .int 0]]

example : exArchiveOp.Pairwise (fun e f => monoLt e.1 f.1 = true) ∧ (∀ e ∈ exArchiveOp, CoefOK e.2) ∧
    exArchiveFops.length < 2 ^ 31 ∧ (∀ ix ∈ exArchiveFops, ∀ c ∈ ix, Verif.Fops.Representable c) ∧
    (∀ e ∈ exArchiveOp, e.1.length ≤ 4 ∧ ∀ x ∈ e.1, x.idx ∈ exArchiveFops) := by
  refine ⟨?_, ?_, by decide, ?_, ?_⟩
  · simp [exArchiveOp, monoLt]
  · simp [exArchiveOp, CoefOK, RoC.ofReal, RoC.ofComplex]
  · simp [exArchiveFops, Verif.Fops.Representable]
  · simp [exArchiveOp, exArchiveFops]

/-- Reading does not clear the operator read into: a term already there survives and hides a stored
term with the same monomial. -/
theorem C07_read_does_not_clear (w : Nat) :
    ∃ a, h5Write w [([], RoC.ofReal 1)] [] = some a ∧
      h5Read a [([], RoC.ofReal 5)] = some ([([], RoC.ofReal 5)], []) := by
  exact ⟨_, rfl, rfl⟩

end Verif.Operators
