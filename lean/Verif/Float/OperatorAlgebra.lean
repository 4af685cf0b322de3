import Verif.Operators.Canonical
import Verif.Float.Relative

/-!
# The algebra of operators with the numbers of the machine

`many_body_operator.hpp` with coefficients of type `double` or `std::complex<double>`: sums are rounded, and a
coefficient that becomes smaller than `100 epsilon` by an addition is removed (`utility/numeric_ops.hpp`).  The
model of `Verif/Operators` uses an exact ring and the test `x = 0`.

* C187: which laws hold exactly nevertheless: sums commute, an operator minus itself is zero, the dagger is an
  involution and respects sums, an operator plus its dagger is hermitian, the canonical anticommutation relations;
  what `==` means; and which laws fail: associativity of sums, transitivity of `==`, products with small numbers.

Simplifications: coefficients do not overflow and are not NaN; `x -= y` is `x += -y`, which is the same in IEEE
arithmetic; the complex conjugate and the sign are exact.
-/

namespace Verif.OperatorDouble
open Verif.Operators Verif.Binary64

/-! ## Model -/

/-- what the code does with coefficients: `+=` (many_body_operator.hpp:215, 245, 387), unary minus (204, 256, 374), `conj` (300) and the test `is_zero` (numeric_ops.hpp:42-49) -/
structure Arith (K : Type) where
  add : K → K → K
  neg : K → K
  conj : K → K
  small : K → Bool

/-- `100 * std::numeric_limits<double>::epsilon()`, numeric_ops.hpp:42 -/
def tol : ℚ := 100 * 2 ^ (-52 : ℤ)

/-- `std::abs(x) < tolerance`, numeric_ops.hpp:43 -/
def smallD (x : ℚ) : Bool := decide (-tol < x ∧ x < tol)

/-- coefficients of type `double` -/
def real : Arith ℚ := ⟨fun x y => rnd (x + y), fun x => -x, fun x => x, smallD⟩

/-- coefficients of type `std::complex<double>`; the test is numeric_ops.hpp:47-49 -/
def complex : Arith (ℚ × ℚ) :=
  ⟨fun x y => (rnd (x.1 + y.1), rnd (x.2 + y.2)), fun x => (-x.1, -x.2), fun x => (x.1, -x.2), fun x => smallD x.1 && smallD x.2⟩

section
variable {ι : Type} [LinearOrder ι] {K : Type}

/-- insertion with accumulation, many_body_operator.hpp:211-217, 242-247, 382-389 and 393-396: a new monomial is stored without a test -/
def insertM (A : Arith K) (m : Mono ι) (c : K) : MMap ι K → MMap ι K
  | [] => [(m, c)]
  | (m', c') :: t =>
    if m = m' then (if A.small (A.add c' c) then t else (m', A.add c' c) :: t)
    else if monoLt m m' then (m, c) :: (m', c') :: t
    else (m', c') :: insertM A m c t

/-- `operator+=(op)`, many_body_operator.hpp:239-250 -/
def addM (A : Arith K) (a b : MMap ι K) : MMap ι K := b.foldl (fun t e => insertM A e.1 e.2 t) a

/-- `operator-=(op)`, many_body_operator.hpp:252-263 -/
def subM (A : Arith K) (a b : MMap ι K) : MMap ι K := b.foldl (fun t e => insertM A e.1 (A.neg e.2) t) a

/-- unary minus, many_body_operator.hpp:202-206 -/
def negM (A : Arith K) (a : MMap ι K) : MMap ι K := a.map fun e => (e.1, A.neg e.2)

/-- `dagger`, many_body_operator.hpp:297-302 -/
def daggerM (A : Arith K) (a : MMap ι K) : MMap ι K := a.foldl (fun t e => insertKeep (Mono.adj e.1) (A.conj e.2) t) []

/-- `operator==`, many_body_operator.hpp:282 with `is_zero`, 199 -/
def eqM (A : Arith K) (a b : MMap ι K) : Bool := (subM A a b).isEmpty

/-- `is_op_hermitian` with tolerance 0, many_body_operator.hpp:420-422: no coefficient is smaller than 0 in absolute value, so that there must be none -/
def hermitianM (A : Arith K) (a : MMap ι K) : Bool := (subM A (daggerM A a) a).isEmpty

/-- `operator*=(scalar)` for `double`, many_body_operator.hpp:226-234 -/
def smulD (a : MMap ι ℚ) (x : ℚ) : MMap ι ℚ := if smallD x then [] else a.map fun e => (e.1, rnd (e.2 * x))

/-- `operator+=(scalar)` for `double`, many_body_operator.hpp:208-219 -/
def addScalarD (a : MMap ι ℚ) (x : ℚ) : MMap ι ℚ := if smallD x then a else insertM real [] x a

/-- `normalize_and_insert` for `double`, many_body_operator.hpp:349-390; the coefficient only changes its sign on the way -/
def normalizeD (m : Mono ι) (c : ℚ) (target : MMap ι ℚ) : MMap ι ℚ :=
  match normTerms (normFuel m) m c with
  | some l => l.foldl (fun t e => insertM real e.1 e.2 t) target
  | none => target

/-- `operator*=(op)` for `double`, many_body_operator.hpp:265-280 -/
def mulD (a b : MMap ι ℚ) : MMap ι ℚ :=
  a.foldl (fun t e => b.foldl (fun t f => normalizeD (e.1 ++ f.1) (rnd (e.2 * f.2)) t) t) []

/-- expressions of a program, with numbers of type `double`: `c`, `c_dag`, numbers, and the operations of the class
(`/=` is many_body_operator.hpp:236) -/
inductive Expr (ι : Type)
  | op (dagger : Bool) (i : ι)
  | number (x : ℚ)
  | add (p q : Expr ι)
  | sub (p q : Expr ι)
  | mul (p q : Expr ι)
  | neg (p : Expr ι)
  | dagger (p : Expr ι)
  | plus (p : Expr ι) (x : ℚ)
  | times (p : Expr ι) (x : ℚ)
  | over (p : Expr ι) (x : ℚ)

/-- the operator an expression builds; `op` is `make_canonical` (many_body_operator.hpp:163-168), `number` the constructor (130-133) -/
def eval : Expr ι → MMap ι ℚ
  | .op d i => [([⟨d, i⟩], 1)]
  | .number x => if smallD x then [] else [([], x)]
  | .add p q => addM real (eval p) (eval q)
  | .sub p q => subM real (eval p) (eval q)
  | .mul p q => mulD (eval p) (eval q)
  | .neg p => negM real (eval p)
  | .dagger p => daggerM real (eval p)
  | .plus p x => addScalarD (eval p) x
  | .times p x => smulD (eval p) x
  | .over p x => smulD (eval p) (rnd (1 / x))

/-! ## Specification -/

/-- the numbers that occur are doubles -/
def Expr.doubles : Expr ι → Prop
  | .op _ _ => True
  | .number x => Rep x
  | .add p q | .sub p q | .mul p q => p.doubles ∧ q.doubles
  | .neg p | .dagger p | .over p _ => p.doubles
  | .plus p x | .times p x => p.doubles ∧ Rep x

/-- the keys of a `std::map` -/
def Sorted (a : MMap ι K) : Prop := a.Pairwise fun e f => monoLt e.1 f.1 = true

/-- the coefficient of a monomial, if it is stored -/
def coef : MMap ι K → Mono ι → Option K
  | [], _ => none
  | (m', c) :: t, m => if m = m' then some c else coef t m

/-- the coefficient of a sum -/
def total (A : Arith K) : Option K → Option K → Option K
  | x, none => x
  | none, some c => some c
  | some c', some c => if A.small (A.add c' c) then none else some (A.add c' c)

/-- what is used about the arithmetic -/
structure Laws (A : Arith K) : Prop where
  comm : ∀ x y, A.add x y = A.add y x
  neg_add : ∀ x y, A.neg (A.add x y) = A.add (A.neg x) (A.neg y)
  neg_neg : ∀ x, A.neg (A.neg x) = x
  conj_add : ∀ x y, A.conj (A.add x y) = A.add (A.conj x) (A.conj y)
  conj_conj : ∀ x, A.conj (A.conj x) = x
  small_neg : ∀ x, A.small (A.neg x) = A.small x
  small_conj : ∀ x, A.small (A.conj x) = A.small x
  self : ∀ x, A.small (A.add x (A.neg x)) = true

/-! ## Proofs -/

theorem smallD_neg (x : ℚ) : smallD (-x) = smallD x := by
  unfold smallD
  rw [decide_eq_decide]
  constructor <;> rintro ⟨h1, h2⟩ <;> constructor <;> linarith

theorem tol_pos : 0 < tol := mul_pos (by norm_num) (two_zpow_pos _)

theorem smallD_zero : smallD 0 = true := by
  unfold smallD
  rw [decide_eq_true_eq]
  exact ⟨neg_lt_zero.2 tol_pos, tol_pos⟩

theorem real_laws : Laws real where
  comm x y := by simp [real, add_comm]
  neg_add x y := by
    simp only [real]
    rw [← rnd_neg, neg_add]
  neg_neg x := by simp [real]
  conj_add _ _ := rfl
  conj_conj _ := rfl
  small_neg x := smallD_neg x
  small_conj _ := rfl
  self x := by
    simp only [real, add_neg_cancel, rnd_zero]
    exact smallD_zero

theorem complex_laws : Laws complex where
  comm x y := by simp [complex, add_comm]
  neg_add x y := by
    simp only [complex]
    rw [← rnd_neg, ← rnd_neg, neg_add, neg_add]
  neg_neg x := by simp [complex]
  conj_add x y := by
    simp only [complex]
    rw [← rnd_neg, neg_add]
  conj_conj x := by simp [complex]
  small_neg x := by simp only [complex, smallD_neg]
  small_conj x := by simp only [complex, smallD_neg]
  self x := by
    simp only [complex, add_neg_cancel, rnd_zero]
    rw [smallD_zero]
    rfl

theorem coef_none {t : MMap ι K} {m : Mono ι} (h : ∀ e ∈ t, e.1 ≠ m) : coef t m = none := by
  induction t with
  | nil => rfl
  | cons e t ih =>
    obtain ⟨m', c⟩ := e
    rw [coef, if_neg (fun e => h (m', c) (by simp) e.symm), ih fun e he => h e (by simp [he])]

theorem coef_mem {t : MMap ι K} {m : Mono ι} {c : K} (h : coef t m = some c) : (m, c) ∈ t := by
  induction t with
  | nil => simp [coef] at h
  | cons e t ih =>
    obtain ⟨m', c'⟩ := e
    rw [coef] at h
    split at h
    · next hm => rw [hm, Option.some.inj h]; simp
    · exact List.mem_cons_of_mem _ (ih h)

theorem lt_ne {m m' : Mono ι} (h : monoLt m m' = true) : m ≠ m' := by
  rintro rfl
  rw [monoLt_irrefl] at h
  exact absurd h (by simp)

theorem coef_tail {e : Mono ι × K} {t : MMap ι K} (h : Sorted (e :: t)) : coef t e.1 = none :=
  coef_none fun f hf => Ne.symm (lt_ne ((List.pairwise_cons.1 h).1 f hf))

theorem coef_before {e : Mono ι × K} {t : MMap ι K} (h : Sorted (e :: t)) {m : Mono ι} (hm : monoLt m e.1 = true) : coef (e :: t) m = none := by
  apply coef_none
  intro f hf
  rcases List.mem_cons.1 hf with rfl | hf
  · exact Ne.symm (lt_ne hm)
  · exact Ne.symm (lt_ne (monoLt_trans hm ((List.pairwise_cons.1 h).1 f hf)))

theorem mem_insertM {A : Arith K} {m : Mono ι} {c : K} {t : MMap ι K} {e : Mono ι × K} (h : e ∈ insertM A m c t) : e ∈ t ∨ e.1 = m := by
  induction t with
  | nil => simp only [insertM, List.mem_singleton] at h; exact .inr (by rw [h])
  | cons f t ih =>
    obtain ⟨m', c'⟩ := f
    rw [insertM] at h
    split at h
    · next hm =>
      split at h
      · exact .inl (by simp [h])
      · rcases List.mem_cons.1 h with h | h
        · exact .inr (by rw [h, hm])
        · exact .inl (by simp [h])
    · split at h
      · rcases List.mem_cons.1 h with h | h
        · exact .inr (by rw [h])
        · exact .inl h
      · rcases List.mem_cons.1 h with h | h
        · exact .inl (by simp [h])
        · rcases ih h with h | h
          · exact .inl (by simp [h])
          · exact .inr h

theorem insertM_sorted (A : Arith K) (m : Mono ι) (c : K) (t : MMap ι K) (h : Sorted t) : Sorted (insertM A m c t) := by
  induction t with
  | nil => exact List.pairwise_singleton _ _
  | cons f t ih =>
    obtain ⟨m', c'⟩ := f
    obtain ⟨h1, h2⟩ := List.pairwise_cons.1 h
    rw [insertM]
    split
    · split
      · exact h2
      · exact List.pairwise_cons.2 ⟨h1, h2⟩
    · next hne =>
      split
      · next hlt =>
        refine List.pairwise_cons.2 ⟨?_, h⟩
        intro e he
        rcases List.mem_cons.1 he with rfl | he
        · exact hlt
        · exact monoLt_trans hlt (h1 e he)
      · next hlt =>
        refine List.pairwise_cons.2 ⟨?_, ih h2⟩
        intro e he
        rcases mem_insertM he with he | he
        · exact h1 e he
        · rw [he]
          rcases monoLt_trichotomy m m' with h | h | h
          · exact absurd h hlt
          · exact absurd h hne
          · exact h

theorem coef_insertM (A : Arith K) (m : Mono ι) (c : K) (t : MMap ι K) (h : Sorted t) (q : Mono ι) :
    coef (insertM A m c t) q = if q = m then total A (coef t m) (some c) else coef t q := by
  induction t with
  | nil => by_cases hq : q = m <;> simp [insertM, coef, total, hq]
  | cons f t ih =>
    obtain ⟨m', c'⟩ := f
    rw [insertM]
    by_cases hm : m = m'
    · subst hm
      rw [if_pos rfl, coef, if_pos rfl]
      simp only [total]
      split
      · by_cases hq : q = m
        · rw [if_pos hq, hq]
          exact coef_tail h
        · rw [if_neg hq, coef, if_neg hq]
      · by_cases hq : q = m
        · rw [if_pos hq, coef, if_pos hq]
        · rw [if_neg hq, coef, if_neg hq, coef, if_neg hq]
    · rw [if_neg hm]
      by_cases hlt : monoLt m m' = true
      · rw [if_pos hlt, coef, coef_before h hlt]
        rfl
      · rw [if_neg hlt, coef, ih (List.pairwise_cons.1 h).2]
        by_cases hq : q = m'
        · subst hq
          rw [if_pos rfl, if_neg (Ne.symm hm), coef, if_pos rfl]
        · rw [if_neg hq]
          by_cases hqm : q = m
          · rw [if_pos hqm, if_pos hqm, coef, if_neg hm]
          · rw [if_neg hqm, if_neg hqm, coef, if_neg hq]

theorem ext {a b : MMap ι K} (ha : Sorted a) (hb : Sorted b) (h : ∀ m, coef a m = coef b m) : a = b := by
  induction a generalizing b with
  | nil =>
    cases b with
    | nil => rfl
    | cons f b =>
      have := h f.1
      rw [coef, coef, if_pos rfl] at this
      exact absurd this (by simp)
  | cons e a ih =>
    cases b with
    | nil =>
      have := h e.1
      rw [coef, coef, if_pos rfl] at this
      exact absurd this (by simp)
    | cons f b =>
      have he : e.1 = f.1 := by
        rcases monoLt_trichotomy e.1 f.1 with hl | hl | hl
        · have := h e.1
          rw [coef_before hb hl, coef, if_pos rfl] at this
          exact absurd this (by simp)
        · exact hl
        · have := h f.1
          rw [coef_before ha hl, coef, if_pos rfl] at this
          exact absurd this (by simp)
      have hc : e.2 = f.2 := by
        have := h e.1
        rw [coef, coef, if_pos rfl, if_pos he] at this
        exact Option.some.inj this
      have hef : e = f := Prod.ext he hc
      subst hef
      congr 1
      apply ih (List.pairwise_cons.1 ha).2 (List.pairwise_cons.1 hb).2
      intro m
      by_cases hm : m = e.1
      · rw [hm, coef_tail ha, coef_tail hb]
      · have := h m
        rw [coef, coef, if_neg hm, if_neg hm] at this
        exact this

theorem addM_sorted (A : Arith K) {a : MMap ι K} (b : MMap ι K) (ha : Sorted a) : Sorted (addM A a b) := by
  unfold addM
  induction b generalizing a with
  | nil => exact ha
  | cons e b ih => exact ih (insertM_sorted A e.1 e.2 a ha)

theorem subM_eq (A : Arith K) (a b : MMap ι K) : subM A a b = addM A a (negM A b) := by
  simp [subM, addM, negM, List.foldl_map]

theorem negM_sorted (A : Arith K) {a : MMap ι K} (ha : Sorted a) : Sorted (negM A a) := by
  unfold Sorted negM
  rw [List.pairwise_map]
  exact ha

theorem subM_sorted (A : Arith K) {a : MMap ι K} (b : MMap ι K) (ha : Sorted a) : Sorted (subM A a b) := by
  rw [subM_eq]
  exact addM_sorted A _ ha

theorem coef_negM (A : Arith K) (a : MMap ι K) (m : Mono ι) : coef (negM A a) m = (coef a m).map A.neg := by
  unfold negM
  induction a with
  | nil => rfl
  | cons e a ih =>
    rw [List.map_cons, coef, coef]
    split
    · rfl
    · exact ih

/-- **C187, coefficients of a sum.**  A monomial of the sum that occurs in both operators has the rounded sum of the
coefficients and is missing exactly if this is smaller than the tolerance; a monomial of one of them keeps its
coefficient, however small. -/
theorem C187_coefficients (A : Arith K) (a b : MMap ι K) (ha : Sorted a) (hb : Sorted b) (m : Mono ι) :
    coef (addM A a b) m = total A (coef a m) (coef b m) := by
  unfold addM
  induction b generalizing a with
  | nil => cases h : coef a m <;> simp [coef, total, h]
  | cons e b ih =>
    rw [List.foldl_cons, ih _ (insertM_sorted A _ _ _ ha) (List.pairwise_cons.1 hb).2, coef_insertM A _ _ _ ha, coef]
    by_cases hm : m = e.1
    · rw [if_pos hm, if_pos hm, hm, coef_tail hb]
      rfl
    · rw [if_neg hm, if_neg hm]

theorem insertKeep_sorted' (m : Mono ι) (c : K) (t : MMap ι K) (h : Sorted t) : Sorted (insertKeep m c t) := by
  induction t with
  | nil => exact List.pairwise_singleton _ _
  | cons f t ih =>
    obtain ⟨m', c'⟩ := f
    obtain ⟨h1, h2⟩ := List.pairwise_cons.1 h
    rw [insertKeep]
    split
    · exact h
    · next hne =>
      split
      · next hlt =>
        refine List.pairwise_cons.2 ⟨?_, h⟩
        intro e he
        rcases List.mem_cons.1 he with rfl | he
        · exact hlt
        · exact monoLt_trans hlt (h1 e he)
      · next hlt =>
        refine List.pairwise_cons.2 ⟨?_, ih h2⟩
        intro e he
        have hmem : e ∈ t ∨ e = (m, c) := by
          clear ih h1 h2 h hlt hne
          induction t with
          | nil => simp only [insertKeep, List.mem_singleton] at he; exact .inr he
          | cons g t ih =>
            obtain ⟨m'', c''⟩ := g
            rw [insertKeep] at he
            split at he
            · exact .inl he
            · split at he
              · rcases List.mem_cons.1 he with he | he
                · exact .inr he
                · exact .inl he
              · rcases List.mem_cons.1 he with he | he
                · exact .inl (by simp [he])
                · rcases ih he with he | he
                  · exact .inl (by simp [he])
                  · exact .inr he
        rcases hmem with he | he
        · exact h1 e he
        · rw [he]
          rcases monoLt_trichotomy m m' with h | h | h
          · exact absurd h hlt
          · exact absurd h hne
          · exact h

theorem coef_insertKeep (m : Mono ι) (c : K) (t : MMap ι K) (h : Sorted t) (q : Mono ι) :
    coef (insertKeep m c t) q = if q = m then (coef t m).or (some c) else coef t q := by
  induction t with
  | nil => by_cases hq : q = m <;> simp [insertKeep, coef, hq]
  | cons f t ih =>
    obtain ⟨m', c'⟩ := f
    rw [insertKeep]
    by_cases hm : m = m'
    · subst hm
      rw [if_pos rfl]
      by_cases hq : q = m
      · rw [if_pos hq, hq, coef, if_pos rfl]
        rfl
      · rw [if_neg hq]
    · rw [if_neg hm]
      by_cases hlt : monoLt m m' = true
      · rw [if_pos hlt, coef, coef_before h hlt]
        rfl
      · rw [if_neg hlt, coef, ih (List.pairwise_cons.1 h).2]
        by_cases hq : q = m'
        · subst hq
          rw [if_pos rfl, if_neg (Ne.symm hm), coef, if_pos rfl]
        · rw [if_neg hq]
          by_cases hqm : q = m
          · rw [if_pos hqm, if_pos hqm, coef, if_neg hm]
          · rw [if_neg hqm, if_neg hqm, coef, if_neg hq]

theorem dagger_fold' (A : Arith K) (a t : MMap ι K) (ha : Sorted a) (ht : Sorted t) :
    Sorted (a.foldl (fun t e => insertKeep (Mono.adj e.1) (A.conj e.2) t) t) ∧
    ∀ m, coef (a.foldl (fun t e => insertKeep (Mono.adj e.1) (A.conj e.2) t) t) m = (coef t m).or ((coef a (Mono.adj m)).map A.conj) := by
  induction a generalizing t with
  | nil => exact ⟨ht, fun m => by simp [coef]⟩
  | cons e a ih =>
    obtain ⟨h1, h2⟩ := ih (insertKeep (Mono.adj e.1) (A.conj e.2) t) (List.pairwise_cons.1 ha).2 (insertKeep_sorted' _ _ _ ht)
    refine ⟨h1, fun m => ?_⟩
    rw [List.foldl_cons, h2, coef_insertKeep _ _ _ ht, coef]
    by_cases hm : m = Mono.adj e.1
    · have hm' : Mono.adj m = e.1 := by rw [hm, Mono.adj_adj]
      rw [if_pos hm, if_pos hm', ← hm, hm', coef_tail ha]
      cases coef t m <;> rfl
    · have hm' : Mono.adj m ≠ e.1 := fun h => hm (by rw [← h, Mono.adj_adj])
      rw [if_neg hm, if_neg hm']

theorem daggerM_sorted (A : Arith K) {a : MMap ι K} (ha : Sorted a) : Sorted (daggerM A a) := (dagger_fold' A a [] ha List.Pairwise.nil).1

theorem coef_daggerM (A : Arith K) {a : MMap ι K} (ha : Sorted a) (m : Mono ι) : coef (daggerM A a) m = (coef a (Mono.adj m)).map A.conj := by
  have := (dagger_fold' A a [] ha List.Pairwise.nil).2 m
  simpa [daggerM, coef] using this

theorem total_comm {A : Arith K} (h : Laws A) (x y : Option K) : total A x y = total A y x := by
  cases x <;> cases y <;> simp [total, h.comm]

/-- **C187, sums commute** to the last bit, including the terms that are removed. -/
theorem C187_add_comm {A : Arith K} (h : Laws A) (a b : MMap ι K) (ha : Sorted a) (hb : Sorted b) : addM A a b = addM A b a := by
  apply ext (addM_sorted A b ha) (addM_sorted A a hb)
  intro m
  rw [C187_coefficients A a b ha hb, C187_coefficients A b a hb ha, total_comm h]

theorem eq_nil {a : MMap ι K} (h : ∀ m, coef a m = none) : a = [] := by
  cases a with
  | nil => rfl
  | cons e a =>
    have := h e.1
    rw [coef, if_pos rfl] at this
    exact absurd this (by simp)

theorem eqM_iff (A : Arith K) (a b : MMap ι K) (ha : Sorted a) (hb : Sorted b) :
    eqM A a b = true ↔ ∀ m, total A (coef a m) ((coef b m).map A.neg) = none := by
  unfold eqM
  rw [List.isEmpty_iff, subM_eq]
  constructor
  · intro h m
    rw [← coef_negM, ← C187_coefficients A a (negM A b) ha (negM_sorted A hb), h]
    rfl
  · intro h
    apply eq_nil
    intro m
    rw [C187_coefficients A a (negM A b) ha (negM_sorted A hb), coef_negM]
    exact h m

/-- **C187, the meaning of `==`.**  Two operators are equal for the code exactly if they store the same monomials and
all their coefficients differ by less than the tolerance after rounding. -/
theorem C187_equality (A : Arith K) (a b : MMap ι K) (ha : Sorted a) (hb : Sorted b) :
    eqM A a b = true ↔ ∀ m, (coef a m = none ∧ coef b m = none) ∨
      ∃ x y, coef a m = some x ∧ coef b m = some y ∧ A.small (A.add x (A.neg y)) = true := by
  rw [eqM_iff A a b ha hb]
  refine forall_congr' fun m => ?_
  cases h1 : coef a m <;> cases h2 : coef b m <;> simp [total]

/-- **C187, `==` is reflexive and symmetric.** -/
theorem C187_eq_refl_symm {A : Arith K} (h : Laws A) (a b : MMap ι K) (ha : Sorted a) (hb : Sorted b) :
    eqM A a a = true ∧ eqM A a b = eqM A b a := by
  refine ⟨?_, ?_⟩
  · rw [C187_equality A a a ha ha]
    intro m
    cases hm : coef a m with
    | none => exact .inl ⟨rfl, rfl⟩
    | some x => exact .inr ⟨x, x, rfl, rfl, h.self x⟩
  · have key : ∀ a b : MMap ι K, Sorted a → Sorted b → eqM A a b = true → eqM A b a = true := by
      intro a b ha hb hab
      rw [C187_equality A b a hb ha]
      intro m
      rcases (C187_equality A a b ha hb).1 hab m with ⟨h1, h2⟩ | ⟨x, y, h1, h2, h3⟩
      · exact .inl ⟨h2, h1⟩
      · refine .inr ⟨y, x, h2, h1, ?_⟩
        rw [← h.small_neg, h.neg_add, h.neg_neg, h.comm]
        exact h3
    cases h1 : eqM A a b with
    | true => exact (key a b ha hb h1).symm
    | false =>
      cases h2 : eqM A b a with
      | false => rfl
      | true => rw [key b a hb ha h2] at h1; exact absurd h1 (by simp)

/-- **C187, an operator minus itself** is zero, without any remaining term. -/
theorem C187_sub_self {A : Arith K} (h : Laws A) (a : MMap ι K) (ha : Sorted a) : subM A a a = [] := by
  have := (C187_eq_refl_symm h a a ha ha).1
  rw [eqM, List.isEmpty_iff] at this
  exact this

/-- **C187, the dagger** is an involution and respects sums to the last bit. -/
theorem C187_dagger {A : Arith K} (h : Laws A) (a b : MMap ι K) (ha : Sorted a) (hb : Sorted b) :
    daggerM A (daggerM A a) = a ∧ daggerM A (addM A a b) = addM A (daggerM A a) (daggerM A b) := by
  constructor
  · apply ext (daggerM_sorted A (daggerM_sorted A ha)) ha
    intro m
    rw [coef_daggerM A (daggerM_sorted A ha), coef_daggerM A ha, Mono.adj_adj]
    cases coef a m <;> simp [h.conj_conj]
  · apply ext (daggerM_sorted A (addM_sorted A b ha)) (addM_sorted A _ (daggerM_sorted A ha))
    intro m
    rw [coef_daggerM A (addM_sorted A b ha), C187_coefficients A a b ha hb,
      C187_coefficients A _ _ (daggerM_sorted A ha) (daggerM_sorted A hb), coef_daggerM A ha, coef_daggerM A hb]
    cases coef a (Mono.adj m) with
    | none => cases coef b (Mono.adj m) <;> rfl
    | some x =>
      cases coef b (Mono.adj m) with
      | none => rfl
      | some y =>
        simp only [total, Option.map_some, ← h.conj_add, h.small_conj]
        split <;> rfl

/-- **C187, an operator plus its dagger** is hermitian for `is_op_hermitian` with its default tolerance zero. -/
theorem C187_hermitian {A : Arith K} (h : Laws A) (a : MMap ι K) (ha : Sorted a) : hermitianM A (addM A a (daggerM A a)) = true := by
  have hd := daggerM_sorted A ha
  unfold hermitianM
  rw [(C187_dagger h a (daggerM A a) ha hd).2, (C187_dagger h a a ha ha).1, C187_add_comm h _ _ hd ha,
    C187_sub_self h _ (addM_sorted A _ ha)]
  rfl

/-- **C187, anticommutators.**  In double precision `c_i c†_j + c†_j c_i` is one for equal labels and zero for
different ones, exactly. -/
theorem C187_anticommutator (i j : ι) :
    addM real (mulD [([⟨false, i⟩], 1)] [([⟨true, j⟩], 1)]) (mulD [([⟨true, j⟩], 1)] [([⟨false, i⟩], 1)]) = if i = j then [([], 1)] else [] := by
  have h1 : rnd 1 = 1 := rnd_rep rep_one
  have h0 : smallD (rnd 0) = true := by
    rw [rnd_zero]
    exact smallD_zero
  by_cases hij : i = j
  · subst hij
    simp [mulD, normalizeD, normTerms, normFuel, pass, emitAll, addM, insertM, monoLt, COp.lt, h1, real, h0]
  · simp [mulD, normalizeD, normTerms, normFuel, pass, emitAll, addM, insertM, monoLt, COp.lt, h1, real, h0, hij]

/-- the form of every operator -/
def Good (a : MMap ι ℚ) : Prop := Sorted a ∧ ∀ e ∈ a, NormalOrdered e.1 ∧ Rep e.2

theorem mem_insertM_rep {m : Mono ι} {c : ℚ} {t : MMap ι ℚ} (h : ∀ e ∈ t, NormalOrdered e.1 ∧ Rep e.2) (hm : NormalOrdered m) (hc : Rep c) :
    ∀ e ∈ insertM real m c t, NormalOrdered e.1 ∧ Rep e.2 := by
  induction t with
  | nil =>
    intro e he
    simp only [insertM, List.mem_singleton] at he
    rw [he]
    exact ⟨hm, hc⟩
  | cons f t ih =>
    obtain ⟨m', c'⟩ := f
    have ht : ∀ e ∈ t, NormalOrdered e.1 ∧ Rep e.2 := fun e he => h e (by simp [he])
    have hf := h (m', c') (by simp)
    intro e he
    rw [insertM] at he
    split at he
    · split at he
      · exact ht e he
      · rcases List.mem_cons.1 he with rfl | he
        · exact ⟨hf.1, rep_rnd _⟩
        · exact ht e he
    · split at he
      · rcases List.mem_cons.1 he with rfl | he
        · exact ⟨hm, hc⟩
        · exact h e he
      · rcases List.mem_cons.1 he with rfl | he
        · exact hf
        · exact ih ht e he

theorem good_insert {m : Mono ι} {c : ℚ} {t : MMap ι ℚ} (h : Good t) (hm : NormalOrdered m) (hc : Rep c) : Good (insertM real m c t) :=
  ⟨insertM_sorted real m c t h.1, mem_insertM_rep h.2 hm hc⟩

theorem good_fold {l : List (Mono ι × ℚ)} {t : MMap ι ℚ} (h : Good t) (hl : ∀ e ∈ l, NormalOrdered e.1 ∧ Rep e.2) :
    Good (l.foldl (fun t e => insertM real e.1 e.2 t) t) := by
  induction l generalizing t with
  | nil => exact h
  | cons e l ih => exact ih (good_insert h (hl e (by simp)).1 (hl e (by simp)).2) fun e he => hl e (by simp [he])

theorem good_normalize {m : Mono ι} {c : ℚ} {t : MMap ι ℚ} (h : Good t) (hc : Rep c) : Good (normalizeD m c t) := by
  unfold normalizeD
  split
  · next l hl =>
    apply good_fold h
    intro e he
    obtain ⟨h1, h2⟩ := normTerms_normal _ _ _ _ hl e he
    refine ⟨h1, ?_⟩
    rcases h2 with h2 | h2 <;> rw [h2]
    · exact hc
    · exact rep_neg hc
  · exact h

theorem good_nil : Good ([] : MMap ι ℚ) := ⟨List.Pairwise.nil, by simp⟩

theorem good_mul (a b : MMap ι ℚ) : Good (mulD a b) := by
  have inner : ∀ (b t : MMap ι ℚ) (e : Mono ι × ℚ), Good t → Good (b.foldl (fun t f => normalizeD (e.1 ++ f.1) (rnd (e.2 * f.2)) t) t) := by
    intro b
    induction b with
    | nil => intro t e h; exact h
    | cons f b ih => intro t e h; exact ih _ e (good_normalize h (rep_rnd _))
  have outer : ∀ (a t : MMap ι ℚ), Good t → Good (a.foldl (fun t e => b.foldl (fun t f => normalizeD (e.1 ++ f.1) (rnd (e.2 * f.2)) t) t) t) := by
    intro a
    induction a with
    | nil => intro t h; exact h
    | cons e a ih => intro t h; exact ih _ (inner b t e h)
  exact outer a [] good_nil

theorem good_map {a : MMap ι ℚ} (h : Good a) (f : ℚ → ℚ) (hf : ∀ x, Rep x → Rep (f x)) : Good (a.map fun e => (e.1, f e.2)) := by
  refine ⟨?_, ?_⟩
  · unfold Sorted
    rw [List.pairwise_map]
    exact h.1
  · intro e he
    obtain ⟨e', h1, rfl⟩ := List.mem_map.1 he
    exact ⟨(h.2 e' h1).1, hf _ (h.2 e' h1).2⟩

theorem good_smul {a : MMap ι ℚ} (h : Good a) (x : ℚ) : Good (smulD a x) := by
  unfold smulD
  split
  · exact good_nil
  · exact good_map h (fun y => rnd (y * x)) fun _ _ => rep_rnd _

theorem sorted_mem_coef {a : MMap ι K} (h : Sorted a) {e : Mono ι × K} (he : e ∈ a) : coef a e.1 = some e.2 := by
  induction a with
  | nil => simp at he
  | cons f a ih =>
    rw [coef]
    rcases List.mem_cons.1 he with rfl | he
    · rw [if_pos rfl]
    · rw [if_neg (Ne.symm (lt_ne ((List.pairwise_cons.1 h).1 e he))), ih (List.pairwise_cons.1 h).2 he]

theorem good_dagger {a : MMap ι ℚ} (h : Good a) : Good (daggerM real a) := by
  refine ⟨daggerM_sorted real h.1, ?_⟩
  intro e he
  have h1 := sorted_mem_coef (daggerM_sorted real h.1) he
  rw [coef_daggerM real h.1, Option.map_eq_some_iff] at h1
  obtain ⟨c, h1, h2⟩ := h1
  have h3 := h.2 _ (coef_mem h1)
  refine ⟨?_, ?_⟩
  · have := Mono.adj_normal h3.1
    rwa [Mono.adj_adj] at this
  · rw [← h2]
    exact h3.2

theorem good_sub {a b : MMap ι ℚ} (ha : Good a) (hb : Good b) : Good (subM real a b) := by
  rw [subM_eq]
  exact good_fold ha (good_map hb (fun x => -x) fun _ h => rep_neg h).2

/-- **C187, form of the operators.**  Whatever operations are used: the monomials are stored once each, in order, they
are normal ordered without repeated operators, and the coefficients are doubles. -/
theorem C187_form (p : Expr ι) (h : p.doubles) :
    Sorted (eval p) ∧ ∀ e ∈ eval p, NormalOrdered e.1 ∧ Rep e.2 := by
  change Good (eval p)
  induction p with
  | op d i =>
    refine ⟨List.pairwise_singleton _ _, ?_⟩
    intro e he
    rw [eval, List.mem_singleton] at he
    rw [he]
    exact ⟨normalOrdered_singleton _, rep_one⟩
  | number x =>
    rw [eval]
    split
    · exact good_nil
    · refine ⟨List.pairwise_singleton _ _, ?_⟩
      intro e he
      rw [List.mem_singleton] at he
      rw [he]
      exact ⟨normalOrdered_nil, h⟩
  | add p q hp hq => exact good_fold (hp h.1) (hq h.2).2
  | sub p q hp hq => exact good_sub (hp h.1) (hq h.2)
  | mul p q hp hq => exact good_mul _ _
  | neg p hp => exact good_map (hp h) (fun x => -x) fun _ h => rep_neg h
  | dagger p hp => exact good_dagger (hp h)
  | plus p x hp =>
    rw [eval, addScalarD]
    split
    · exact hp h.1
    · exact good_insert (hp h.1) normalOrdered_nil h.2
  | times p x hp => exact good_smul (hp h.1) x
  | over p x hp => exact good_smul (hp h) _

/-! ### Examples -/

end

/-- `n`, times a number -/
def num (x : ℚ) : MMap ℕ ℚ := [([⟨true, 0⟩, ⟨false, 0⟩], x)]

/-- **C187, associativity fails.**  With coefficients that are not smaller than the tolerance: in `(A + B) + C` the sum
in parentheses is removed, `A + (B + C)` is removed as a whole. -/
theorem C187_not_associative :
    addM real (addM real (num 1) (num (-1 + 2 ^ (-47 : ℤ)))) (num (-(7 / 4) * 2 ^ (-46 : ℤ))) = num (-(7 / 4) * 2 ^ (-46 : ℤ)) ∧
    addM real (num 1) (addM real (num (-1 + 2 ^ (-47 : ℤ))) (num (-(7 / 4) * 2 ^ (-46 : ℤ)))) = [] ∧
    eqM real (num (-(7 / 4) * 2 ^ (-46 : ℤ))) [] = false ∧ smallD (-(7 / 4) * 2 ^ (-46 : ℤ)) = false := by decide +kernel

/-- **C187, `==` is not transitive.** -/
theorem C187_not_transitive :
    eqM real (num 1) (num (1 + 2 ^ (-46 : ℤ))) = true ∧ eqM real (num (1 + 2 ^ (-46 : ℤ))) (num (1 + 2 ^ (-45 : ℤ))) = true ∧
    eqM real (num 1) (num (1 + 2 ^ (-45 : ℤ))) = false := by decide +kernel

/-- **C187, products with small numbers.**  A factor below the tolerance makes every operator zero, while two factors
above it give a smaller coefficient, and an operator with this coefficient differs from zero. -/
theorem C187_small_factor :
    smulD (num (2 ^ 60)) (2 ^ (-46 : ℤ)) = [] ∧ smulD (smulD (num 1) (2 ^ (-40 : ℤ))) (2 ^ (-40 : ℤ)) = num (2 ^ (-80 : ℤ)) ∧
    eqM real (num (2 ^ (-80 : ℤ))) [] = false := by decide +kernel

example : eval (.mul (.op false (0 : ℕ)) (.over (.op true 0) 3)) = [([], rnd (1 / 3)), ([⟨true, 0⟩, ⟨false, 0⟩], -rnd (1 / 3))] := by decide +kernel

example : eval (.sub (.add (.op true (0 : ℕ)) (.number (1 / 2))) (.dagger (.op false 0))) = [([], 1 / 2)] := by decide +kernel

example : Sorted (num 3) := List.pairwise_singleton _ _

example : addM real [([⟨true, 0⟩], 1 / 2)] (num (1 / 3)) = [([⟨true, 0⟩], 1 / 2), ([⟨true, 0⟩, ⟨false, 0⟩], 1 / 3)] := by decide +kernel

example : hermitianM complex [([⟨true, (0 : ℕ)⟩, ⟨false, 1⟩], (1, 2)), ([⟨true, 1⟩, ⟨false, 0⟩], (1, -2))] = true ∧
    hermitianM complex [([⟨true, (0 : ℕ)⟩, ⟨false, 1⟩], (1, 2)), ([⟨true, 1⟩, ⟨false, 0⟩], (1, 2))] = false := by decide +kernel

end Verif.OperatorDouble
