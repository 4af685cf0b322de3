import Verif.Operators.Semantics

/-! Canonical form is an invariant, and is faithful on Fock space. -/

namespace Verif.Operators
open Verif.Fock

section keys
variable {ι : Type} [LinearOrder ι] {R : Type} [CommRing R] [DecidableEq R]

/-- The invariant of the stored map: strictly increasing keys, normal-ordered monomials,
non-zero coefficients. -/
structure Canonical (a : MMap ι R) : Prop where
  sorted : a.Pairwise (fun e f => monoLt e.1 f.1 = true)
  normal : ∀ e ∈ a, NormalOrdered e.1
  nonzero : ∀ e ∈ a, e.2 ≠ 0

theorem mem_insertAdd {m : Mono ι} {c : R} {t : MMap ι R} {e : Mono ι × R}
    (h : e ∈ insertAdd m c t) :
    e ∈ t ∨ (e.1 = m ∧ (e.2 = c ∨ ((∃ c', (m, c') ∈ t) ∧ e.2 ≠ 0))) := by
  induction t with
  | nil => simp [insertAdd] at h; subst h; simp
  | cons f t ih =>
    obtain ⟨m', c'⟩ := f
    unfold insertAdd at h
    split at h
    · rename_i hm; subst hm
      split at h
      · exact Or.inl (by simp [h])
      · rename_i h0
        simp only [List.mem_cons] at h
        rcases h with rfl | h
        · exact Or.inr ⟨rfl, Or.inr ⟨⟨c', by simp⟩, h0⟩⟩
        · exact Or.inl (by simp [h])
    · split at h
      · simp only [List.mem_cons] at h
        rcases h with rfl | h | h
        · exact Or.inr ⟨rfl, Or.inl rfl⟩
        · exact Or.inl (by simp [h])
        · exact Or.inl (by simp [h])
      · simp only [List.mem_cons] at h
        rcases h with rfl | h
        · exact Or.inl (by simp)
        · rcases ih h with h | ⟨h1, h2 | ⟨⟨c'', h2⟩, h3⟩⟩
          · exact Or.inl (by simp [h])
          · exact Or.inr ⟨h1, Or.inl h2⟩
          · exact Or.inr ⟨h1, Or.inr ⟨⟨c'', by simp [h2]⟩, h3⟩⟩

theorem insertAdd_sorted (m : Mono ι) (c : R) (t : MMap ι R)
    (h : t.Pairwise (fun e f => monoLt e.1 f.1 = true)) :
    (insertAdd m c t).Pairwise (fun e f => monoLt e.1 f.1 = true) := by
  induction t with
  | nil => simp [insertAdd]
  | cons f t ih =>
    obtain ⟨m', c'⟩ := f
    rw [List.pairwise_cons] at h
    obtain ⟨h1, h2⟩ := h
    unfold insertAdd
    split
    · rename_i hm; subst hm
      split
      · exact h2
      · exact List.pairwise_cons.mpr ⟨h1, h2⟩
    · split
      · rename_i hlt
        refine List.pairwise_cons.mpr ⟨?_, List.pairwise_cons.mpr ⟨h1, h2⟩⟩
        intro e he
        simp only [List.mem_cons] at he
        rcases he with rfl | he
        · exact hlt
        · exact monoLt_trans hlt (h1 e he)
      · rename_i hne hlt
        refine List.pairwise_cons.mpr ⟨?_, ih h2⟩
        intro e he
        rcases mem_insertAdd he with he | ⟨he, _⟩
        · exact h1 e he
        · simp only [he]
          rcases monoLt_trichotomy m m' with h | h | h
          · simp [h] at hlt
          · exact absurd h hne
          · exact h

theorem insertAdd_canonical {m : Mono ι} {c : R} {t : MMap ι R} (h : Canonical t)
    (hm : NormalOrdered m) (hc : c ≠ 0) : Canonical (insertAdd m c t) := by
  refine ⟨insertAdd_sorted m c t h.sorted, ?_, ?_⟩
  · intro e he
    rcases mem_insertAdd he with he | ⟨he, _⟩
    · exact h.normal e he
    · rw [he]; exact hm
  · intro e he
    rcases mem_insertAdd he with he | ⟨_, he | ⟨_, he⟩⟩
    · exact h.nonzero e he
    · rw [he]; exact hc
    · exact he

theorem mem_insertKeep {m : Mono ι} {c : R} {t : MMap ι R} {e : Mono ι × R}
    (h : e ∈ insertKeep m c t) : e ∈ t ∨ e = (m, c) := by
  induction t with
  | nil => simp [insertKeep] at h; subst h; simp
  | cons f t ih =>
    obtain ⟨m', c'⟩ := f
    unfold insertKeep at h
    split at h
    · exact Or.inl h
    · split at h
      · simp only [List.mem_cons] at h
        rcases h with rfl | h | h
        · exact Or.inr rfl
        · exact Or.inl (by simp [h])
        · exact Or.inl (by simp [h])
      · simp only [List.mem_cons] at h
        rcases h with rfl | h
        · exact Or.inl (by simp)
        · rcases ih h with h | h
          · exact Or.inl (by simp [h])
          · exact Or.inr h

theorem insertKeep_sorted (m : Mono ι) (c : R) (t : MMap ι R)
    (h : t.Pairwise (fun e f => monoLt e.1 f.1 = true)) :
    (insertKeep m c t).Pairwise (fun e f => monoLt e.1 f.1 = true) := by
  induction t with
  | nil => simp [insertKeep]
  | cons f t ih =>
    obtain ⟨m', c'⟩ := f
    rw [List.pairwise_cons] at h
    obtain ⟨h1, h2⟩ := h
    unfold insertKeep
    split
    · exact List.pairwise_cons.mpr ⟨h1, h2⟩
    · split
      · rename_i hlt
        refine List.pairwise_cons.mpr ⟨?_, List.pairwise_cons.mpr ⟨h1, h2⟩⟩
        intro e he
        simp only [List.mem_cons] at he
        rcases he with rfl | he
        · exact hlt
        · exact monoLt_trans hlt (h1 e he)
      · rename_i hne hlt
        refine List.pairwise_cons.mpr ⟨?_, ih h2⟩
        intro e he
        rcases mem_insertKeep he with he | he
        · exact h1 e he
        · simp only [he]
          rcases monoLt_trichotomy m m' with h | h | h
          · simp [h] at hlt
          · exact absurd h hne
          · exact h

theorem insertKeep_canonical {m : Mono ι} {c : R} {t : MMap ι R} (h : Canonical t)
    (hm : NormalOrdered m) (hc : c ≠ 0) : Canonical (insertKeep m c t) := by
  refine ⟨insertKeep_sorted m c t h.sorted, ?_, ?_⟩
  · intro e he
    rcases mem_insertKeep he with he | he
    · exact h.normal e he
    · rw [he]; exact hm
  · intro e he
    rcases mem_insertKeep he with he | he
    · exact h.nonzero e he
    · rw [he]; exact hc

theorem insertKeep_action (m : Mono ι) (c : R) (t : MMap ι R) (h : ∀ e ∈ t, e.1 ≠ m) :
    action (insertKeep m c t) = action t + c • monoAct m := by
  induction t with
  | nil => simp [insertKeep]
  | cons e t ih =>
    obtain ⟨m', c'⟩ := e
    unfold insertKeep
    have h1 : m ≠ m' := fun he => h (m', c') (by simp) he.symm
    simp only [h1, if_false]
    split
    · simp; abel
    · simp [ih (fun e he => h e (by simp [he]))]; abel

theorem canonical_nil : Canonical ([] : MMap ι R) := ⟨List.Pairwise.nil, by simp, by simp⟩

theorem foldl_insertAdd_canonical (l : List (Mono ι × R)) (t : MMap ι R) (h : Canonical t)
    (hl : ∀ e ∈ l, NormalOrdered e.1 ∧ e.2 ≠ 0) :
    Canonical (l.foldl (fun t e => insertAdd e.1 e.2 t) t) := by
  induction l generalizing t with
  | nil => exact h
  | cons e l ih =>
    simp only [List.foldl_cons]
    have := hl e (by simp)
    exact ih _ (insertAdd_canonical h this.1 this.2) (fun e he => hl e (by simp [he]))

theorem normalizeAndInsert_canonical (m : Mono ι) (c : R) (t : MMap ι R) (h : Canonical t)
    (hc : c ≠ 0) : Canonical (normalizeAndInsert m c t) := by
  unfold normalizeAndInsert
  split
  · rename_i l hl
    apply foldl_insertAdd_canonical _ _ h
    intro e he
    obtain ⟨h1, h2⟩ := normTerms_normal _ _ _ _ hl e he
    refine ⟨h1, ?_⟩
    rcases h2 with h2 | h2 <;> rw [h2]
    · exact hc
    · simpa using hc
  · exact h

theorem add_canonical {a b : MMap ι R} (ha : Canonical a) (hb : Canonical b) :
    Canonical (add a b) :=
  foldl_insertAdd_canonical b a ha (fun e he => ⟨hb.normal e he, hb.nonzero e he⟩)

theorem sub_canonical {a b : MMap ι R} (ha : Canonical a) (hb : Canonical b) :
    Canonical (sub a b) := by
  have hb' : ∀ e ∈ b, NormalOrdered e.1 ∧ e.2 ≠ 0 := fun e he => ⟨hb.normal e he, hb.nonzero e he⟩
  unfold sub
  clear hb
  induction b generalizing a with
  | nil => exact ha
  | cons e b ih =>
    simp only [List.foldl_cons]
    have := hb' e (by simp)
    exact ih (insertAdd_canonical ha this.1 (by simpa using this.2)) (fun e he => hb' e (by simp [he]))

theorem map_coeff_canonical {a : MMap ι R} (ha : Canonical a) (f : R → R)
    (hf : ∀ x, x ≠ 0 → f x ≠ 0) : Canonical (a.map (fun e => (e.1, f e.2))) := by
  refine ⟨?_, ?_, ?_⟩
  · rw [List.pairwise_map]; exact ha.sorted
  · intro e he
    obtain ⟨e', he', rfl⟩ := List.mem_map.mp he
    exact ha.normal e' he'
  · intro e he
    obtain ⟨e', he', rfl⟩ := List.mem_map.mp he
    exact hf _ (ha.nonzero e' he')

theorem neg_canonical {a : MMap ι R} (ha : Canonical a) : Canonical (neg a) :=
  map_coeff_canonical ha (fun x => -x) (fun x hx => by simpa using hx)

theorem smul_canonical [NoZeroDivisors R] {a : MMap ι R} (ha : Canonical a) (x : R) :
    Canonical (smul a x) := by
  unfold smul
  split
  · exact canonical_nil
  · rename_i h
    exact map_coeff_canonical ha (fun y => y * x) (fun y hy => mul_ne_zero hy h)

theorem normalOrdered_nil : NormalOrdered ([] : Mono ι) := List.Pairwise.nil
theorem normalOrdered_singleton (x : COp ι) : NormalOrdered [x] := List.pairwise_singleton _ _

theorem ofScalar_canonical (x : R) : Canonical (ofScalar x : MMap ι R) := by
  unfold ofScalar
  split
  · exact canonical_nil
  · rename_i h
    exact ⟨List.pairwise_singleton _ _, by simp [normalOrdered_nil], by simpa using h⟩

theorem ofMonomial_canonical (x : R) (m : Mono ι) (hm : NormalOrdered m) :
    Canonical (ofMonomial x m) := by
  unfold ofMonomial
  split
  · exact canonical_nil
  · rename_i h
    exact ⟨List.pairwise_singleton _ _, by simpa using hm, by simpa using h⟩

theorem makeCanonical_canonical [Nontrivial R] (d : Bool) (i : ι) :
    Canonical (makeCanonical d i : MMap ι R) :=
  ⟨List.pairwise_singleton _ _, by simp [makeCanonical, normalOrdered_singleton], by simp [makeCanonical]⟩

theorem addScalar_canonical {a : MMap ι R} (ha : Canonical a) (x : R) :
    Canonical (addScalar a x) := by
  unfold addScalar
  split
  · exact ha
  · rename_i h
    exact insertAdd_canonical ha normalOrdered_nil h

theorem mul_canonical [NoZeroDivisors R] {a b : MMap ι R} (ha : Canonical a) (hb : Canonical b) :
    Canonical (mul a b) := by
  have inner : ∀ (e : Mono ι × R), e.2 ≠ 0 → ∀ (b : MMap ι R), (∀ f ∈ b, f.2 ≠ 0) →
      ∀ t : MMap ι R, Canonical t →
      Canonical (b.foldl (fun t f => normalizeAndInsert (e.1 ++ f.1) (e.2 * f.2) t) t) := by
    intro e he b
    induction b with
    | nil => intro _ t ht; exact ht
    | cons f b ih =>
      intro hb t ht
      exact ih (fun f hf => hb f (by simp [hf])) _
        (normalizeAndInsert_canonical _ _ _ ht (mul_ne_zero he (hb f (by simp))))
  have outer : ∀ (a : MMap ι R), (∀ f ∈ a, f.2 ≠ 0) → ∀ t : MMap ι R, Canonical t →
      Canonical (a.foldl (fun t e => b.foldl (fun t f => normalizeAndInsert (e.1 ++ f.1) (e.2 * f.2) t) t) t) := by
    intro a
    induction a with
    | nil => intro _ t ht; exact ht
    | cons e a ih =>
      intro ha t ht
      exact ih (fun f hf => ha f (by simp [hf])) _
        (inner e (ha e (by simp)) b hb.nonzero t ht)
  exact outer a ha.nonzero [] canonical_nil

/-! ### adjoint of monomials -/

theorem COp.adj_adj (x : COp ι) : x.adj.adj = x := by simp [COp.adj]

theorem COp.adj_lt (x y : COp ι) : x.adj.lt y.adj = y.lt x := by
  obtain ⟨dx, ix⟩ := x; obtain ⟨dy, iy⟩ := y
  cases dx <;> cases dy <;> simp [COp.adj, COp.lt]

omit [LinearOrder ι] in
theorem Mono.adj_adj (m : Mono ι) : Mono.adj (Mono.adj m) = m := by
  simp [Mono.adj, List.map_map, Function.comp_def, COp.adj]

omit [LinearOrder ι] in
theorem Mono.adj_injective {m m' : Mono ι} (h : Mono.adj m = Mono.adj m') : m = m' := by
  rw [← Mono.adj_adj m, h, Mono.adj_adj]

theorem Mono.adj_normal {m : Mono ι} (h : NormalOrdered m) : NormalOrdered (Mono.adj m) := by
  unfold NormalOrdered Mono.adj at *
  rw [List.pairwise_map, List.pairwise_reverse]
  exact h.imp (fun {a b} hab => by rw [COp.adj_lt]; exact hab)

omit [CommRing R] [DecidableEq R] in
theorem keys_ne_of_sorted {e : Mono ι × R} {a : MMap ι R}
    (h : (e :: a).Pairwise (fun e f => monoLt e.1 f.1 = true)) : ∀ f ∈ a, f.1 ≠ e.1 := by
  intro f hf he
  have := (List.pairwise_cons.mp h).1 f hf
  rw [he, monoLt_irrefl] at this
  simp at this

variable [StarRing R]

theorem dagger_fold {a t : MMap ι R} (ha : a.Pairwise (fun e f => monoLt e.1 f.1 = true))
    (hd : ∀ e ∈ a, ∀ f ∈ t, f.1 ≠ Mono.adj e.1) :
    action (a.foldl (fun t e => insertKeep (Mono.adj e.1) (star e.2) t) t)
      = action t + action (a.map (fun e => (Mono.adj e.1, star e.2))) := by
  induction a generalizing t with
  | nil => simp
  | cons e a ih =>
    simp only [List.foldl_cons, List.map_cons, action_cons]
    rw [ih (List.pairwise_cons.mp ha).2]
    · rw [insertKeep_action _ _ _ (hd e (by simp))]; abel
    · intro f hf g hg
      rcases mem_insertKeep hg with hg | hg
      · exact hd f (by simp [hf]) g hg
      · rw [hg]
        intro h
        exact keys_ne_of_sorted ha f hf (Mono.adj_injective h).symm

theorem dagger_action_eq {a : MMap ι R} (ha : Canonical a) :
    action (dagger a) = action (a.map (fun e => (Mono.adj e.1, star e.2))) := by
  have := dagger_fold (t := []) ha.sorted (by simp)
  simpa [dagger] using this

theorem dagger_canonical {a : MMap ι R} (ha : Canonical a) : Canonical (dagger a) := by
  have key : ∀ (a t : MMap ι R), (∀ e ∈ a, NormalOrdered e.1 ∧ e.2 ≠ 0) → Canonical t →
      Canonical (a.foldl (fun t e => insertKeep (Mono.adj e.1) (star e.2) t) t) := by
    intro a
    induction a with
    | nil => intro t _ ht; exact ht
    | cons e a ih =>
      intro t he ht
      have h1 := he e (by simp)
      exact ih _ (fun e h => he e (by simp [h]))
        (insertKeep_canonical ht (Mono.adj_normal h1.1) (by simpa using h1.2))
  exact key a [] (fun e he => ⟨ha.normal e he, ha.nonzero e he⟩) canonical_nil

omit [StarRing R] in
theorem transform_canonical {a : MMap ι R} (ha : Canonical a) (L : Mono ι → R → R) :
    Canonical (transform L a) := by
  have key : ∀ (a t : MMap ι R), (∀ e ∈ a, NormalOrdered e.1) → Canonical t →
      Canonical (a.foldl (fun t e => if L e.1 e.2 = 0 then t else insertKeep e.1 (L e.1 e.2) t) t) := by
    intro a
    induction a with
    | nil => intro t _ ht; exact ht
    | cons e a ih =>
      intro t he ht
      simp only [List.foldl_cons]
      apply ih _ (fun e h => he e (by simp [h]))
      split
      · exact ht
      · rename_i h0
        exact insertKeep_canonical ht (he e (by simp)) h0
  exact key a [] ha.normal canonical_nil

end keys

/-! ### matrix elements -/
section melem
variable {ι : Type} [LinearOrder ι] {R : Type} [CommRing R]

theorem opAct_ket (x : COp ι) (S : Finset ι) :
    ∃ (r : R) (S' : Finset ι), opAct x (ket S : Space ι R) = r • ket S' := by
  unfold opAct
  split
  · rw [create_ket]; split
    · exact ⟨0, ∅, by simp⟩
    · exact ⟨_, _, rfl⟩
  · rw [annihilate_ket]; split
    · exact ⟨_, _, rfl⟩
    · exact ⟨0, ∅, by simp⟩

theorem monoAct_ket (m : Mono ι) (S : Finset ι) :
    ∃ (r : R) (S' : Finset ι), monoAct m (ket S : Space ι R) = r • ket S' := by
  induction m with
  | nil => exact ⟨1, S, by simp⟩
  | cons x m ih =>
    obtain ⟨r, S', h⟩ := ih
    obtain ⟨r', S'', h'⟩ := opAct_ket (R := R) x S'
    refine ⟨r * r', S'', ?_⟩
    rw [monoAct_cons, Module.End.mul_apply, h, map_smul, h', smul_smul]

theorem ket_symm (S T : Finset ι) : (ket S : Space ι R) T = ket T S := by
  simp only [ket]
  by_cases h : T = S
  · simp [h]
  · have : ¬ S = T := fun e => h e.symm
    simp [h, this]

theorem opAct_adj (x : COp ι) (S T : Finset ι) :
    melem (opAct x.adj : Module.End R (Space ι R)) T S = melem (opAct x) S T := by
  have key : ∀ (i : ι) (S T : Finset ι),
      (create i (ket S : Space ι R)) T = annihilate i (ket T : Space ι R) S := by
    intro i S T
    rw [create_ket, annihilate_apply]
    by_cases hS : i ∈ S
    · simp [hS]
    · simp [hS, ket, eq_comm]
  obtain ⟨d, i⟩ := x
  cases d
  · simp [melem, opAct, COp.adj, key]
  · simp [melem, opAct, COp.adj, key]

theorem monoAct_adj (m : Mono ι) (S T : Finset ι) :
    melem (monoAct (Mono.adj m) : Module.End R (Space ι R)) T S = melem (monoAct m) S T := by
  induction m generalizing S T with
  | nil => simp [Mono.adj, melem, ket_symm]
  | cons x m ih =>
    have h1 : Mono.adj (x :: m) = Mono.adj m ++ [x.adj] := by simp [Mono.adj]
    rw [h1]
    obtain ⟨r, S', hS⟩ := opAct_ket (R := R) x.adj S
    obtain ⟨t, T', hT⟩ := monoAct_ket (R := R) m T
    have h2 : melem (monoAct (Mono.adj m ++ [x.adj]) : Module.End R (Space ι R)) T S
        = r * melem (monoAct (Mono.adj m) : Module.End R (Space ι R)) T S' := by
      simp [melem, hS]
    have h3 : melem (monoAct (x :: m) : Module.End R (Space ι R)) S T
        = t * melem (opAct x : Module.End R (Space ι R)) S T' := by
      simp [melem, hT]
    rw [h2, h3, ih, ← opAct_adj]
    simp only [melem, hS, hT, Pi.smul_apply, smul_eq_mul]
    rw [ket_symm]; ring

theorem melem_action (a : MMap ι R) (T S : Finset ι) :
    melem (action a) T S = (a.map (fun e => e.2 * melem (monoAct e.1) T S)).sum := by
  induction a with
  | nil => simp [melem]
  | cons e a ih => rw [List.map_cons, List.sum_cons, ← ih]; simp [melem]

theorem melem_monoAct_int [StarRing R] (m : Mono ι) (T S : Finset ι) :
    star (melem (monoAct m : Module.End R (Space ι R)) T S) = melem (monoAct m) T S := by
  have h1 : ∀ (x : COp ι) (S : Finset ι), ∃ (r : R) (S' : Finset ι),
      opAct x (ket S : Space ι R) = r • ket S' ∧ star r = r := by
    intro x S
    have hs : ∀ i (S : Finset ι), star (sgn i S : R) = sgn i S := by intro i S; simp [sgn]
    unfold opAct
    split
    · rw [create_ket]; split
      · exact ⟨0, ∅, by simp, by simp⟩
      · exact ⟨_, _, rfl, hs _ _⟩
    · rw [annihilate_ket]; split
      · exact ⟨_, _, rfl, hs _ _⟩
      · exact ⟨0, ∅, by simp, by simp⟩
  have h2 : ∀ (m : Mono ι), ∃ (r : R) (S' : Finset ι),
      monoAct m (ket S : Space ι R) = r • ket S' ∧ star r = r := by
    intro m
    induction m with
    | nil => exact ⟨1, S, by simp, by simp⟩
    | cons x m ih =>
      obtain ⟨r, S', h, hr⟩ := ih
      obtain ⟨r', S'', h', hr'⟩ := h1 x S'
      refine ⟨r * r', S'', ?_, ?_⟩
      · rw [monoAct_cons, Module.End.mul_apply, h, map_smul, h', smul_smul]
      · rw [star_mul, hr, hr', mul_comm]
  obtain ⟨r, S', h, hr⟩ := h2 m
  simp only [melem, h, Pi.smul_apply, smul_eq_mul, ket]
  split <;> simp [hr]

/-! ### faithfulness -/

/-- labels of the creation / annihilation factors -/
def creSet (m : Mono ι) : Finset ι := ((m.filter (·.dagger)).map (·.idx)).toFinset
def annSet (m : Mono ι) : Finset ι := ((m.filter (!·.dagger)).map (·.idx)).toFinset

theorem ann_list_ket (l : List ι) (S : Finset ι) :
    monoAct (l.map (fun i => (⟨false, i⟩ : COp ι))) (ket S : Space ι R) = 0 ∨
      (l.toFinset ⊆ S) := by
  induction l with
  | nil => simp
  | cons i l ih =>
    rcases ih with h | h
    · left; simp [h]
    · by_cases hi : i ∈ S
      · right
        intro x hx
        simp only [List.toFinset_cons, Finset.mem_insert] at hx
        rcases hx with rfl | hx
        · exact hi
        · exact h hx
      · left
        -- c_i annihilates: amplitudes of the remaining state do not contain `i`
        have : ∀ (l : List ι), ∃ (r : R) (S' : Finset ι), S' ⊆ S ∧
            monoAct (l.map (fun i => (⟨false, i⟩ : COp ι))) (ket S : Space ι R) = r • ket S' := by
          intro l
          induction l with
          | nil => exact ⟨1, S, subset_rfl, by simp⟩
          | cons j l ih =>
            obtain ⟨r, S', hs, h⟩ := ih
            simp only [List.map_cons, monoAct_cons, Module.End.mul_apply, h, map_smul]
            simp only [opAct, Bool.false_eq_true, if_false, annihilate_ket]
            split
            · exact ⟨r * sgn j S', S'.erase j, (Finset.erase_subset _ _).trans hs, by rw [smul_smul]⟩
            · exact ⟨0, ∅, by simp, by simp⟩
        obtain ⟨r, S', hs, h⟩ := this l
        simp only [List.map_cons, monoAct_cons, Module.End.mul_apply, h, map_smul]
        have : i ∉ S' := fun h => hi (hs h)
        simp [opAct, annihilate_ket, this]

theorem ann_list_self (l : List ι) (hl : l.Nodup) :
    ∃ r : R, r * r = 1 ∧
      monoAct (l.map (fun i => (⟨false, i⟩ : COp ι))) (ket l.toFinset : Space ι R) = r • ket ∅ := by
  -- generalise: start from `l.toFinset ∪ U`, end in `U`
  have gen : ∀ (l : List ι), l.Nodup → ∀ U : Finset ι, Disjoint l.toFinset U →
      ∃ r : R, r * r = 1 ∧
      monoAct (l.map (fun i => (⟨false, i⟩ : COp ι))) (ket (l.toFinset ∪ U) : Space ι R) = r • ket U := by
    intro l
    induction l with
    | nil => intro _ U _; exact ⟨1, by simp, by simp⟩
    | cons i l ih =>
      intro hn U hd
      rw [List.nodup_cons] at hn
      have hiU : i ∉ U := fun h => by
        exact (Finset.disjoint_left.mp hd (show i ∈ (i :: l).toFinset by simp)) h
      have hdl : Disjoint l.toFinset (insert i U) := by
        rw [Finset.disjoint_insert_right]
        refine ⟨by simpa using hn.1, ?_⟩
        exact Finset.disjoint_of_subset_left (by simp) hd
      obtain ⟨r, hr, h⟩ := ih hn.2 (insert i U) hdl
      have e1 : (i :: l).toFinset ∪ U = l.toFinset ∪ insert i U := by
        ext x; simp
      rw [e1]
      simp only [List.map_cons, monoAct_cons, Module.End.mul_apply, h, map_smul]
      simp only [opAct, Bool.false_eq_true, if_false, annihilate_ket, Finset.mem_insert_self, if_true,
        Finset.erase_insert hiU, smul_smul]
      refine ⟨r * sgn i (insert i U), ?_, rfl⟩
      have := sgn_mul_self (R := R) i (insert i U)
      calc r * sgn i (insert i U) * (r * sgn i (insert i U))
          = (r * r) * (sgn i (insert i U) * sgn i (insert i U)) := by ring
        _ = 1 := by rw [hr, this, one_mul]
  have := gen l hl ∅ (by simp)
  simpa using this

theorem cre_list_vac (l : List ι) (hl : l.Nodup) :
    ∃ r : R, r * r = 1 ∧
      monoAct (l.map (fun i => (⟨true, i⟩ : COp ι))) (ket ∅ : Space ι R) = r • ket l.toFinset := by
  induction l with
  | nil => exact ⟨1, by simp, by simp⟩
  | cons i l ih =>
    rw [List.nodup_cons] at hl
    obtain ⟨r, hr, h⟩ := ih hl.2
    simp only [List.map_cons, monoAct_cons, Module.End.mul_apply, h, map_smul]
    have hi : i ∉ l.toFinset := by simpa using hl.1
    simp only [opAct, if_true, create_ket, hi, if_false, smul_smul]
    refine ⟨r * sgn i l.toFinset, ?_, by simp⟩
    have := sgn_mul_self (R := R) i l.toFinset
    calc r * sgn i l.toFinset * (r * sgn i l.toFinset)
        = (r * r) * (sgn i l.toFinset * sgn i l.toFinset) := by ring
      _ = 1 := by rw [hr, this, one_mul]

/-- a normal ordered monomial is its creation part followed by its annihilation part -/
theorem normal_split {m : Mono ι} (h : NormalOrdered m) :
    m = ((m.filter (·.dagger)).map (·.idx)).map (fun i => (⟨true, i⟩ : COp ι))
      ++ ((m.filter (!·.dagger)).map (·.idx)).map (fun i => (⟨false, i⟩ : COp ι)) := by
  induction m with
  | nil => simp
  | cons x m ih =>
    have hp := List.pairwise_cons.mp h
    have ih := ih hp.2
    obtain ⟨d, i⟩ := x
    cases d
    · -- no creation operator can follow
      have hno : m.filter (·.dagger) = [] := by
        rw [List.filter_eq_nil_iff]
        intro y hy
        have := hp.1 y hy
        obtain ⟨dy, iy⟩ := y
        cases dy
        · simp
        · simp [COp.lt] at this
      simp only [hno, List.map_nil, List.nil_append] at ih
      simp only [List.filter_cons, Bool.false_eq_true, if_false, hno, List.map_nil, List.nil_append,
        Bool.not_false, if_true, List.map_cons]
      rw [← ih]
    · simp only [List.filter_cons, if_true, List.map_cons, List.cons_append, Bool.not_true,
        Bool.false_eq_true, if_false]
      rw [← ih]

theorem normal_nodup_cre {m : Mono ι} (h : NormalOrdered m) :
    ((m.filter (·.dagger)).map (·.idx)).Pairwise (· < ·) := by
  rw [List.pairwise_map, List.pairwise_filter]
  refine h.imp ?_
  intro a b hab ha hb
  obtain ⟨da, ia⟩ := a; obtain ⟨db, ib⟩ := b
  simp only at ha hb; subst ha; subst hb
  simpa [COp.lt] using hab

theorem normal_nodup_ann {m : Mono ι} (h : NormalOrdered m) :
    ((m.filter (!·.dagger)).map (·.idx)).Pairwise (· > ·) := by
  rw [List.pairwise_map, List.pairwise_filter]
  refine h.imp ?_
  intro a b hab ha hb
  obtain ⟨da, ia⟩ := a; obtain ⟨db, ib⟩ := b
  simp at ha hb; subst ha; subst hb
  simpa [COp.lt] using hab

/-- two normal ordered monomials with the same sets are equal -/
theorem normal_ext {m m' : Mono ι} (h : NormalOrdered m) (h' : NormalOrdered m')
    (hc : creSet m = creSet m') (ha : annSet m = annSet m') : m = m' := by
  rw [normal_split h, normal_split h']
  have e1 : (m.filter (·.dagger)).map (·.idx) = (m'.filter (·.dagger)).map (·.idx) := by
    apply List.Perm.eq_of_pairwise (le := (· < ·))
    · intro a b _ _ h1 h2; exact absurd h1 (not_lt.mpr h2.le)
    · exact normal_nodup_cre h
    · exact normal_nodup_cre h'
    · rw [List.perm_ext_iff_of_nodup]
      · intro x
        have := Finset.ext_iff.mp hc x
        simpa [creSet] using this
      · exact (normal_nodup_cre h).imp (fun h => ne_of_lt h)
      · exact (normal_nodup_cre h').imp (fun h => ne_of_lt h)
  have e2 : (m.filter (!·.dagger)).map (·.idx) = (m'.filter (!·.dagger)).map (·.idx) := by
    apply List.Perm.eq_of_pairwise (le := (· > ·))
    · intro a b _ _ h1 h2; exact absurd h1 (not_lt.mpr (le_of_lt h2))
    · exact normal_nodup_ann h
    · exact normal_nodup_ann h'
    · rw [List.perm_ext_iff_of_nodup]
      · intro x
        have := Finset.ext_iff.mp ha x
        simpa [annSet] using this
      · exact (normal_nodup_ann h).imp (fun h => (ne_of_lt h).symm)
      · exact (normal_nodup_ann h').imp (fun h => (ne_of_lt h).symm)
  rw [e1, e2]

theorem monoAct_ket_of_not_subset {m : Mono ι} (h : NormalOrdered m) (S : Finset ι)
    (hs : ¬ annSet m ⊆ S) : monoAct m (ket S : Space ι R) = 0 := by
  rw [normal_split h, monoAct_append, Module.End.mul_apply]
  rcases ann_list_ket (R := R) ((m.filter (!·.dagger)).map (·.idx)) S with h | h
  · rw [h, map_zero]
  · exact absurd h hs

theorem monoAct_ket_self {m : Mono ι} (h : NormalOrdered m) :
    ∃ r : R, r * r = 1 ∧ monoAct m (ket (annSet m) : Space ι R) = r • ket (creSet m) := by
  have e := normal_split h
  have n1 : ((m.filter (!·.dagger)).map (·.idx)).Nodup :=
    (normal_nodup_ann h).imp (fun h => (ne_of_lt h).symm)
  have n2 : ((m.filter (·.dagger)).map (·.idx)).Nodup :=
    (normal_nodup_cre h).imp (fun h => ne_of_lt h)
  obtain ⟨r, hr, h1⟩ := ann_list_self (R := R) _ n1
  obtain ⟨t, ht, h2⟩ := cre_list_vac (R := R) _ n2
  refine ⟨r * t, ?_, ?_⟩
  · calc r * t * (r * t) = (r * r) * (t * t) := by ring
      _ = 1 := by rw [hr, ht, one_mul]
  · have e2 : monoAct m (ket (annSet m) : Space ι R) = monoAct
        (((m.filter (·.dagger)).map (·.idx)).map (fun i => (⟨true, i⟩ : COp ι))
        ++ ((m.filter (!·.dagger)).map (·.idx)).map (fun i => (⟨false, i⟩ : COp ι)))
        (ket (annSet m) : Space ι R) := by rw [← e]
    rw [e2, monoAct_append, Module.End.mul_apply]
    have h1' : monoAct (((m.filter (!·.dagger)).map (·.idx)).map (fun i => (⟨false, i⟩ : COp ι)))
        (ket (annSet m) : Space ι R) = r • ket ∅ := h1
    rw [h1', map_smul, h2, smul_smul]
    rfl

theorem exists_min {α : Type} (f : α → Nat) (l : List α) (h : l ≠ []) :
    ∃ e ∈ l, ∀ e' ∈ l, f e ≤ f e' := by
  induction l with
  | nil => exact absurd rfl h
  | cons a l ih =>
    by_cases hl : l = []
    · subst hl; exact ⟨a, by simp, by simp⟩
    · obtain ⟨e, he, hm⟩ := ih hl
      by_cases hle : f a ≤ f e
      · exact ⟨a, by simp, by
          intro e' he'
          rcases List.mem_cons.mp he' with rfl | he'
          · exact le_refl _
          · exact hle.trans (hm e' he')⟩
      · exact ⟨e, by simp [he], by
          intro e' he'
          rcases List.mem_cons.mp he' with rfl | he'
          · omega
          · exact hm e' he'⟩

theorem sum_single_key {a : MMap ι R} (hs : a.Pairwise (fun e f => monoLt e.1 f.1 = true))
    (g : Mono ι → R) (e : Mono ι × R) (he : e ∈ a) (hg : ∀ f ∈ a, f.1 ≠ e.1 → g f.1 = 0) :
    (a.map (fun e => e.2 * g e.1)).sum = e.2 * g e.1 := by
  induction a with
  | nil => simp at he
  | cons f a ih =>
    have hne := keys_ne_of_sorted hs
    rcases List.mem_cons.mp he with rfl | he'
    · have : (a.map (fun e => e.2 * g e.1)).sum = 0 := by
        apply List.sum_eq_zero
        intro x hx
        obtain ⟨f, hf, rfl⟩ := List.mem_map.mp hx
        rw [hg f (by simp [hf]) (hne f hf), mul_zero]
      simp [this]
    · have hfe : f.1 ≠ e.1 := fun h => hne e he' h.symm
      simp only [List.map_cons, List.sum_cons, hg f (by simp) hfe, mul_zero, zero_add]
      exact ih (List.pairwise_cons.mp hs).2 he' (fun f hf => hg f (by simp [hf]))

/-- A canonical operator with vanishing matrix elements stores nothing. -/
theorem canonical_eq_nil_of_melem [DecidableEq R] {a : MMap ι R} (ha : Canonical a)
    (h : ∀ T S, melem (action a) T S = 0) : a = [] := by
  by_contra hne
  obtain ⟨e, he, hmin⟩ := exists_min (fun e : Mono ι × R => (annSet e.1).card) a hne
  have hz := h (creSet e.1) (annSet e.1)
  rw [melem_action] at hz
  rw [sum_single_key ha.sorted (fun m => melem (monoAct m) (creSet e.1) (annSet e.1)) e he] at hz
  · obtain ⟨r, hr, h1⟩ := monoAct_ket_self (R := R) (ha.normal e he)
    simp only [melem, h1, Pi.smul_apply, smul_eq_mul, ket, if_true, mul_one] at hz
    have : e.2 = 0 := by
      calc e.2 = e.2 * r * r := by rw [mul_assoc, hr, mul_one]
        _ = 0 := by rw [hz, zero_mul]
    exact ha.nonzero e he this
  · intro f hf hfe
    by_cases hsub : annSet f.1 ⊆ annSet e.1
    · have heq : annSet f.1 = annSet e.1 := Finset.eq_of_subset_of_card_le hsub (hmin f hf)
      obtain ⟨r, hr, h1⟩ := monoAct_ket_self (R := R) (ha.normal f hf)
      rw [heq] at h1
      simp only [melem, h1, Pi.smul_apply, smul_eq_mul, ket]
      split
      · rename_i hc
        exact absurd (normal_ext (ha.normal f hf) (ha.normal e he) hc.symm heq) hfe
      · simp
    · simp [melem, monoAct_ket_of_not_subset (ha.normal f hf) _ hsub]

end melem
end Verif.Operators
