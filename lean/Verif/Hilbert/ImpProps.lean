import Verif.Hilbert.ImpSem
import Verif.Operators.Props
import Mathlib.Algebra.BigOperators.Pi

/-! # Property C13: the imperative operator is the algebraic operator -/

namespace Verif.Imp
open Verif.Operators Verif.Fock

/-! ## Specification -/

section spec
variable {ι : Type} [DecidableEq ι] {R : Type} [CommRing R]

/-- The Fock-space vector `Σ_i a_i |occ i⟩`: index `i` of a space of `n` orbitals stands for the
state in which the orbitals `p` with bit `p` of `i` set are occupied. -/
noncomputable def embed (n : Nat) (a : Int → R) : Space Nat R :=
  ∑ i ∈ Finset.range (2 ^ n), a i • ket (occ (BitVec.ofNat 64 i))

/-- The operator with every label replaced by its position in the operator set. -/
def relabel (f : Fops.Fops ι) (op : MMap ι R) : MMap Nat R :=
  op.map (fun e => (e.1.map (fun x => ⟨x.dagger, (Fops.position f x.idx).getD 0⟩), e.2))
end spec

/-! ## Proofs -/

section
variable {ι : Type} [LinearOrder ι] {R : Type} [CommRing R]

theorem positions_some (f : Fops.Fops ι) (m : Mono ι) (h : ∀ x ∈ m, ∃ p, Fops.position f x.idx = some p) :
    positions f m = some (m.map (fun x => ⟨x.dagger, (Fops.position f x.idx).getD 0⟩)) := by
  induction m with
  | nil => rfl
  | cons x m ih =>
    obtain ⟨p, hp⟩ := h x (by simp)
    simp only [positions, hp, ih (fun y hy => h y (by simp [hy])), List.map_cons, Option.getD_some]

theorem positions_none (f : Fops.Fops ι) (m : Mono ι) :
    positions f m = none ↔ ∃ x ∈ m, Fops.position f x.idx = none := by
  induction m with
  | nil => simp [positions]
  | cons x m ih =>
    simp only [positions]
    cases hp : Fops.position f x.idx with
    | none => simp [hp]
    | some p =>
      cases hm : positions f m with
      | none => simpa [hp] using ih.mp hm
      | some pm =>
        have : ¬ ∃ x ∈ m, Fops.position f x.idx = none := fun h => by rw [ih.mpr h] at hm; cases hm
        simpa [hp] using this

theorem relabel_dagFirst (f : Fops.Fops ι) (m : Mono ι) (h : NormalOrdered m) :
    DagFirst (m.map (fun x => ⟨x.dagger, (Fops.position f x.idx).getD 0⟩)) := by
  unfold DagFirst
  rw [List.pairwise_map]
  refine h.imp ?_
  intro a b hab
  obtain ⟨da, ia⟩ := a; obtain ⟨db, ib⟩ := b
  cases da <;> cases db <;> simp_all [COp.lt]

theorem relabel_nodup (f : Fops.Fops ι) (m : Mono ι) (h : NormalOrdered m)
    (hp : ∀ x ∈ m, ∃ p, Fops.position f x.idx = some p) :
    (m.map (fun x => (⟨x.dagger, (Fops.position f x.idx).getD 0⟩ : COp Nat))).Nodup := by
  have hn : m.Nodup := by
    refine h.imp ?_
    intro a b hab e
    subst e
    obtain ⟨da, ia⟩ := a
    cases da <;> simp [COp.lt] at hab
  refine hn.map_on ?_
  intro x hx y hy e
  obtain ⟨p, hpx⟩ := hp x hx
  obtain ⟨q, hqy⟩ := hp y hy
  simp only [hpx, hqy, Option.getD_some, COp.mk.injEq] at e
  obtain ⟨e1, e2⟩ := e
  subst e2
  have h1 := Fops.find_eq_some hpx
  have h2 := Fops.find_eq_some hqy
  rw [h1] at h2
  simp at h2
  obtain ⟨dx, ix⟩ := x; obtain ⟨dy, iy⟩ := y
  simp at e1 h2
  rw [e1, h2]

/-- the term built from a canonical monomial: its action on a basis word -/
theorem buildTerm_spec (f : Fops.Fops ι) (m : Mono ι) (c : R) (hm : NormalOrdered m)
    (hp : ∀ x ∈ m, ∃ p ≤ 16, Fops.position f x.idx = some p) :
    ∃ M, buildTerm f m c = some M ∧ ∀ w : BitVec 64,
      (∃ f3 minus, termOn M w = some (f3, minus) ∧ occ f3 ⊆ occ w ∪ Finset.range f.length ∧
        (c • monoAct (m.map (fun x => (⟨x.dagger, (Fops.position f x.idx).getD 0⟩ : COp Nat))) :
          Module.End R (Space Nat R)) (ket (occ w))
          = (M.coeff * (if minus then (-1 : R) else 1)) • ket (occ f3))
      ∨ (termOn M w = none ∧
        (c • monoAct (m.map (fun x => (⟨x.dagger, (Fops.position f x.idx).getD 0⟩ : COp Nat))) :
          Module.End R (Space Nat R)) (ket (occ w)) = 0) := by
  have hp' : ∀ x ∈ m, ∃ p, Fops.position f x.idx = some p := fun x hx => by
    obtain ⟨p, _, h⟩ := hp x hx; exact ⟨p, h⟩
  have hpos := positions_some f m hp'
  set pm : Mono Nat := m.map (fun x => (⟨x.dagger, (Fops.position f x.idx).getD 0⟩ : COp Nat)) with hpm
  have hd := relabel_dagFirst f m hm
  have hn := relabel_nodup f m hm hp'
  rw [← hpm] at hd hn
  obtain ⟨hact, hperm⟩ := bubble_action (R := R) pm.length pm c hd
  have hnorm := bubble_normal pm c hd hn
  have hmem : ∀ x ∈ (bubble pm.length pm c).1, x.idx ≤ 16 ∧ x.idx < f.length := by
    intro x hx
    have := hperm.mem_iff.mp hx
    rw [hpm] at this
    obtain ⟨y, hy, rfl⟩ := List.mem_map.mp this
    obtain ⟨p, hp16, hpy⟩ := hp y hy
    simp only [hpy, Option.getD_some]
    refine ⟨hp16, ?_⟩
    exact (List.getElem?_eq_some_iff.mp (Fops.find_eq_some hpy)).1
  have hall : (bubble pm.length pm c).1.all (fun x => decide (x.idx < 64)) = true := by
    rw [List.all_eq_true]
    intro x hx
    have := (hmem x hx).1
    simp; omega
  refine ⟨{ coeff := (bubble pm.length pm c).2,
            dMask := orBits (((bubble pm.length pm c).1.filter (!·.dagger)).map (·.idx)),
            dagMask := orBits (((bubble pm.length pm c).1.filter (·.dagger)).map (·.idx)),
            dCount := countMask (((bubble pm.length pm c).1.filter (!·.dagger)).map (·.idx)),
            dagCount := countMask (((bubble pm.length pm c).1.filter (·.dagger)).map (·.idx)) }, ?_, ?_⟩
  · unfold buildTerm
    simp only [hpos, hall, if_true]
  · intro w
    rw [← hact]
    rcases termOn_action _ hnorm (fun x hx => (hmem x hx).1) (bubble pm.length pm c).2 w with
      ⟨f3, minus, h1, h2, h3⟩ | ⟨h1, h2⟩
    · refine Or.inl ⟨f3, minus, h1, ?_, ?_⟩
      · refine h2.trans (Finset.union_subset_union_right ?_)
        intro p hp
        simp only [List.mem_toFinset, List.mem_map, List.mem_filter] at hp
        obtain ⟨x, ⟨hx, _⟩, rfl⟩ := hp
        exact Finset.mem_range.mpr (hmem x hx).2
      · rw [LinearMap.smul_apply, h3, smul_smul]
    · refine Or.inr ⟨h1, ?_⟩
      rw [LinearMap.smul_apply, h2, smul_zero]

theorem occ_lt_iff (w : BitVec 64) (n : Nat) (hn : n ≤ 64) : occ w ⊆ Finset.range n ↔ w.toNat < 2 ^ n := by
  constructor
  · intro h
    apply Nat.lt_pow_two_of_testBit
    intro i hi
    by_contra hb
    have : i ∈ occ w := mem_occ.mpr (by simpa [BitVec.getLsbD] using hb)
    have := Finset.mem_range.mp (h this)
    omega
  · intro h i hi
    rw [mem_occ, BitVec.getLsbD] at hi
    rw [Finset.mem_range]
    by_contra hge
    have : w.toNat < 2 ^ i := lt_of_lt_of_le h (Nat.pow_le_pow_right (by norm_num) (by omega))
    rw [Nat.testBit_lt_two_pow this] at hi
    cases hi

theorem full_index (n : Nat) (hn : n ≤ 30) (i : Nat) (hi : i < 2 ^ n) :
    (HSpace.Full.mk (2 ^ n)).fockState i = some (BitVec.ofNat 64 i) := by
  have h2 : (2 : Int) ^ n = ((2 ^ n : Nat) : Int) := by push_cast; rfl
  rw [HSpace.Full.fockState, if_neg (by simp only [h2]; omega), BitVec.ofInt_natCast]

theorem full_stateIndex (n : Nat) (hn : n ≤ 30) (w : BitVec 64) (hw : w.toNat < 2 ^ n) :
    (HSpace.Full.mk (2 ^ n)).stateIndex w = some (w.toNat : Int) := by
  have h1 := HSpace.pow_le_30 hn
  have h3 : (2 : Nat) ^ 30 = 1073741824 := by norm_num
  have h2 : (2 : Int) ^ n = ((2 ^ n : Nat) : Int) := by push_cast; rfl
  have hu : (HSpace.Full.mk (2 ^ n)).udim = 2 ^ n := by
    simp only [HSpace.Full.udim, h2]
    generalize (2 : Nat) ^ n = N at *
    omega
  rw [HSpace.Full.stateIndex, hu, if_neg (by omega)]
  simp only [Option.some.injEq, Fops.toInt32]
  omega

/-- accumulating into one amplitude -/
theorem embed_update (n : Nat) (hn : n ≤ 30) (t : Int → R) (w : BitVec 64) (hw : w.toNat < 2 ^ n) (x : R) :
    embed n (Function.update t (w.toNat : Int) (t w.toNat + x)) = embed n t + x • ket (occ w) := by
  unfold embed
  have hmem : w.toNat ∈ Finset.range (2 ^ n) := Finset.mem_range.mpr hw
  rw [← Finset.add_sum_erase _ _ hmem, ← Finset.add_sum_erase (Finset.range (2 ^ n)) (fun i => t i • ket (occ (BitVec.ofNat 64 i))) hmem]
  have h1 : ∑ i ∈ (Finset.range (2 ^ n)).erase w.toNat,
      Function.update t (w.toNat : Int) (t w.toNat + x) i • (ket (occ (BitVec.ofNat 64 i)) : Space Nat R)
      = ∑ i ∈ (Finset.range (2 ^ n)).erase w.toNat, t i • ket (occ (BitVec.ofNat 64 i)) := by
    apply Finset.sum_congr rfl
    intro i hi
    have : (i : Int) ≠ (w.toNat : Int) := by
      have := (Finset.mem_erase.mp hi).1
      exact_mod_cast this
    rw [Function.update_of_ne this]
  rw [h1, Function.update_self, add_smul]
  simp only [BitVec.ofNat_toNat, BitVec.setWidth_eq]
  abel

theorem applyTerm_spec (n : Nat) (hn : n ≤ 30) (M : Term R) (A : Module.End R (Space Nat R))
    (hM : ∀ w : BitVec 64, w.toNat < 2 ^ n →
      (∃ f3 minus, termOn M w = some (f3, minus) ∧ f3.toNat < 2 ^ n ∧
        A (ket (occ w)) = (M.coeff * (if minus then (-1 : R) else 1)) • ket (occ f3))
      ∨ (termOn M w = none ∧ A (ket (occ w)) = 0)) (a : Int → R) :
    ∀ (vis : List Nat) (t : Int → R), (∀ i ∈ vis, i < 2 ^ n) →
    ∃ t', applyTerm ⟨2 ^ n⟩ M a vis t = some t' ∧
      embed n t' = embed n t + (vis.map (fun i : Nat => a i • A (ket (occ (BitVec.ofNat 64 i))))).sum := by
  have h1 := HSpace.pow_le_30 hn
  have h3 : (2 : Nat) ^ 30 = 1073741824 := by norm_num
  intro vis
  induction vis with
  | nil => intro t _; exact ⟨t, rfl, by simp⟩
  | cons i vis ih =>
    intro t hv
    have hi := hv i (by simp)
    have hto : (BitVec.ofNat 64 i).toNat = i := by
      rw [BitVec.toNat_ofNat]
      exact Nat.mod_eq_of_lt (by omega)
    have hstep : ∃ t1, stepIndex ⟨2 ^ n⟩ M i (a i) t = some t1 ∧
        embed n t1 = embed n t + a i • A (ket (occ (BitVec.ofNat 64 i))) := by
      simp only [stepIndex, full_index n hn i hi]
      rcases hM (BitVec.ofNat 64 i) (by rw [hto]; exact hi) with ⟨f3, minus, e1, e2, e3⟩ | ⟨e1, e2⟩
      · simp only [e1, full_stateIndex n hn f3 e2]
        refine ⟨_, rfl, ?_⟩
        rw [embed_update n hn t f3 e2, e3, smul_smul, mul_assoc]
      · simp only [e1]
        exact ⟨t, rfl, by rw [e2]; simp⟩
    obtain ⟨t1, g1, g2⟩ := hstep
    obtain ⟨t', g3, g4⟩ := ih t1 (fun j hj => hv j (by simp [hj]))
    refine ⟨t', ?_, ?_⟩
    · simp only [applyTerm, g1, g3]
    · rw [g4, g2, List.map_cons, List.sum_cons, add_assoc]

theorem embed_visited (n : Nat) (a : Int → R) (vis : List Nat) (hnd : vis.Nodup) (hv : ∀ i ∈ vis, i < 2 ^ n)
    (hz : ∀ i < 2 ^ n, i ∉ vis → a (i : Nat) = 0) :
    embed n a = (vis.map (fun i : Nat => a i • (ket (occ (BitVec.ofNat 64 i)) : Space Nat R))).sum := by
  unfold embed
  rw [← List.sum_toFinset _ hnd]
  symm
  apply Finset.sum_subset
  · intro i hi; exact Finset.mem_range.mpr (hv i (by simpa using hi))
  · intro i hi hni
    rw [hz i (Finset.mem_range.mp hi) (by simpa using hni), zero_smul]

theorem apply_spec (f : Fops.Fops ι) (hf : f.length ≤ 30) (a : Int → R) (vis : List Nat)
    (hv : ∀ i ∈ vis, i < 2 ^ f.length) (op : MMap ι R) (hop : ∀ e ∈ op, NormalOrdered e.1)
    (hp : ∀ e ∈ op, ∀ x ∈ e.1, ∃ p ≤ 16, Fops.position f x.idx = some p) :
    ∃ terms, build f op = some terms ∧ ∀ t, ∃ t', apply ⟨2 ^ f.length⟩ a vis terms t = some t' ∧
      embed f.length t' = embed f.length t +
        action (relabel f op) (vis.map (fun i : Nat => a i • (ket (occ (BitVec.ofNat 64 i)) : Space Nat R))).sum := by
  induction op with
  | nil => exact ⟨[], rfl, fun t => ⟨t, rfl, by simp [relabel]⟩⟩
  | cons e op ih =>
    obtain ⟨M, hM1, hM2⟩ := buildTerm_spec f e.1 e.2 (hop e (by simp)) (hp e (by simp))
    obtain ⟨terms, hb, hap⟩ := ih (fun e' h => hop e' (by simp [h])) (fun e' h => hp e' (by simp [h]))
    refine ⟨M :: terms, by simp only [build, hM1, hb], ?_⟩
    intro t
    set A : Module.End R (Space Nat R) :=
      e.2 • monoAct (e.1.map (fun x => (⟨x.dagger, (Fops.position f x.idx).getD 0⟩ : COp Nat))) with hA
    obtain ⟨t1, h1, h2⟩ := applyTerm_spec f.length hf M A (by
      intro w hw
      rcases hM2 w with ⟨f3, minus, e1, e2, e3⟩ | h
      · refine Or.inl ⟨f3, minus, e1, ?_, e3⟩
        rw [← occ_lt_iff _ _ (by omega)] at hw ⊢
        exact e2.trans (Finset.union_subset hw (Finset.Subset.refl _))
      · exact Or.inr h) a vis t hv
    obtain ⟨t', h3, h4⟩ := hap t1
    refine ⟨t', by simp only [apply, h1, h3], ?_⟩
    rw [h4, h2]
    have : relabel f (e :: op) = (e.1.map (fun x => (⟨x.dagger, (Fops.position f x.idx).getD 0⟩ : COp Nat)), e.2) :: relabel f op := rfl
    rw [this, action_cons, LinearMap.add_apply, ← add_assoc]
    congr 2
    rw [← hA, map_list_sum, List.map_map]
    congr 1
    apply List.map_congr_left
    intro i _
    simp

/-- **C13** (partial: labels of the operator sit at positions `0..16`; the theorem below shows that
the claim fails from position 17 on). For every canonical operator, every operator set of at most 30
labels in any order and every state (dense: all indices visited; sparse: the stored ones in any
order), construction and action succeed and the resulting amplitudes are those of the algebraic
operator acting in Fock space, with orbitals ordered by the operator set. -/
theorem C13_imperative_eq_algebraic_partial [DecidableEq R] (op : MMap ι R) (hop : Canonical op) (f : Fops.Fops ι)
    (hf : f.length ≤ 30) (hp : ∀ e ∈ op, ∀ x ∈ e.1, ∃ p ≤ 16, Fops.position f x.idx = some p)
    (a : Int → R) (vis : List Nat) (hnd : vis.Nodup) (hv : ∀ i ∈ vis, i < 2 ^ f.length)
    (hz : ∀ i < 2 ^ f.length, i ∉ vis → a (i : Nat) = 0) :
    ∃ h terms t', HSpace.Full.ofOrbitals f.length = some h ∧ build f op = some terms ∧
      apply h a vis terms 0 = some t' ∧
      embed f.length t' = action (relabel f op) (embed f.length a) := by
  obtain ⟨terms, h1, h2⟩ := apply_spec f hf a vis hv op hop.normal hp
  obtain ⟨t', h3, h4⟩ := h2 0
  refine ⟨_, terms, t', HSpace.ofOrbitals_dim hf, h1, h3, ?_⟩
  rw [h4, ← embed_visited f.length a vis hnd hv hz]
  simp [embed]

/-- The amplitudes are determined by `embed`. -/
theorem embed_injective (n : Nat) (hn : n ≤ 30) (a b : Int → R) (h : embed n a = embed n b) :
    ∀ i : Nat, i < 2 ^ n → a i = b i := by
  have h1 := HSpace.pow_le_30 hn
  have h3 : (2 : Nat) ^ 30 = 1073741824 := by norm_num
  have key : ∀ (c : Int → R) (i : Nat), i < 2 ^ n → embed n c (occ (BitVec.ofNat 64 i)) = c i := by
    intro c i hi
    unfold embed
    rw [Finset.sum_apply, Finset.sum_eq_single i]
    · simp [ket]
    · intro j hj hji
      have hj := Finset.mem_range.mp hj
      have : occ (BitVec.ofNat 64 i) ≠ occ (BitVec.ofNat 64 j) := by
        intro e
        have := congrArg BitVec.toNat (occ_injective e)
        rw [BitVec.toNat_ofNat, BitVec.toNat_ofNat, Nat.mod_eq_of_lt (by omega), Nat.mod_eq_of_lt (by omega)] at this
        exact hji this.symm
      simp [ket, this]
    · intro h; exact absurd (Finset.mem_range.mpr hi) h
  intro i hi
  rw [← key a i hi, ← key b i hi, h]

/-- The constructor throws exactly when a label of the operator is missing from the operator set
(of at most 64 labels). -/
theorem C13_unknown_label_throws [DecidableEq R] (op : MMap ι R) (hop : Canonical op) (f : Fops.Fops ι)
    (hf : f.length ≤ 64) : build f op = none ↔ ∃ e ∈ op, ∃ x ∈ e.1, x.idx ∉ f := by
  have hnorm := hop.normal
  clear hop
  induction op with
  | nil => simp [build]
  | cons e op ih =>
    have ih := ih (fun e' h => hnorm e' (by simp [h]))
    have hterm : buildTerm f e.1 e.2 = none ↔ ∃ x ∈ e.1, x.idx ∉ f := by
      have h0 := positions_none f e.1
      unfold buildTerm
      cases hpos : positions f e.1 with
      | none =>
        simp only [true_iff]
        obtain ⟨x, hx, hn⟩ := h0.mp hpos
        exact ⟨x, hx, Fops.find_eq_none.mp hn⟩
      | some pm =>
        have hno : ¬ ∃ x ∈ e.1, Fops.position f x.idx = none := fun h => by rw [h0.mpr h] at hpos; cases hpos
        have hsome : ∀ x ∈ e.1, ∃ p, Fops.position f x.idx = some p := by
          intro x hx
          cases hq : Fops.position f x.idx with
          | none => exact absurd ⟨x, hx, hq⟩ hno
          | some p => exact ⟨p, rfl⟩
        have hpm := positions_some f e.1 hsome
        rw [hpos] at hpm
        simp only [Option.some.injEq] at hpm
        have hd : DagFirst pm := hpm ▸ relabel_dagFirst f e.1 (hnorm e (by simp))
        have hperm := (bubble_action (R := R) pm.length pm e.2 hd).2
        have hall : (bubble pm.length pm e.2).1.all (fun x => decide (x.idx < 64)) = true := by
          rw [List.all_eq_true]
          intro x hx
          have := hperm.mem_iff.mp hx
          rw [hpm] at this
          obtain ⟨y, hy, rfl⟩ := List.mem_map.mp this
          obtain ⟨p, hq⟩ := hsome y hy
          have := (List.getElem?_eq_some_iff.mp (Fops.find_eq_some hq)).1
          simp only [hq, Option.getD_some, decide_eq_true_eq]
          omega
        simp only [hall, if_true, reduceCtorEq, false_iff]
        rintro ⟨x, hx, hn⟩
        exact hno ⟨x, hx, Fops.find_eq_none.mpr hn⟩
    simp only [build]
    constructor
    · intro h
      cases h1 : buildTerm f e.1 e.2 with
      | none => exact ⟨e, by simp, hterm.mp h1⟩
      | some t =>
        cases h2 : build f op with
        | none =>
          obtain ⟨e', he', h'⟩ := ih.mp h2
          exact ⟨e', by simp [he'], h'⟩
        | some ts => rw [h1, h2] at h; cases h
    · rintro ⟨e', he', h'⟩
      rcases List.mem_cons.mp he' with rfl | he'
      · rw [hterm.mpr h']
      · rw [ih.mpr ⟨e', he', h'⟩]
        cases buildTerm f e.1 e.2 <;> rfl
end

/-! ## A concrete case and the counterexample -/

/-- labels in an operator set whose order differs from the label order -/
def exFops : Fops.Fops Nat := Fops.ofInserts [2, 0, 1]
def exOp : MMap Nat Int := add (mul (cDag 0) (c 2)) (mul (cDag 1) (mul (cDag 2) (mul (c 1) (c 0))))

theorem exOp_canonical : Canonical exOp :=
  add_canonical (mul_canonical (makeCanonical_canonical _ _) (makeCanonical_canonical _ _))
    (mul_canonical (makeCanonical_canonical _ _) (mul_canonical (makeCanonical_canonical _ _)
      (mul_canonical (makeCanonical_canonical _ _) (makeCanonical_canonical _ _))))

-- the hypotheses of C13 hold for `exOp`, `exFops` and the dense state with amplitudes 1..8
example : ∃ h terms t', HSpace.Full.ofOrbitals 3 = some h ∧ build exFops exOp = some terms ∧
    apply h (fun i => i + 1) (List.range 8) terms 0 = some t' ∧
    embed 3 t' = action (relabel exFops exOp) (embed 3 (fun i => i + 1)) :=
  C13_imperative_eq_algebraic_partial exOp exOp_canonical exFops (by decide) (by decide) _ (List.range 8)
    (List.nodup_range) (by decide) (by decide)

-- and the amplitudes really computed: two monomials contribute, with opposite signs
example : ((build exFops exOp).bind (fun terms => apply ⟨8⟩ (fun i => i + 1) (List.range 8) terms 0)).map
    (fun t => (List.range 8).map (fun i => t (i : Nat))) = some [0, 0, 2, 0, 0, -7, 6, 0] := by decide +kernel

/-- **C13 fails** from position 17 on: with 18 orbitals `0..17`, `c_17` acting on the state with
orbitals 16 and 17 occupied gives `+|16⟩` in the code but `-|16⟩` in Fock space
(`parity_number_of_bits` ignores bit 16). -/
theorem C13_fails_with_18_orbitals :
    ((build (Fops.ofInserts (List.range 18)) (c 17 : MMap Nat Int)).bind
      (fun terms => terms.head?.bind (fun M => termOn M (bit 16 ||| bit 17)))) = some (bit 16, false) ∧
    occ (bit 16 ||| bit 17) = {16, 17} ∧ occ (bit 16) = {16} ∧
    action (c 17 : MMap Nat Int) (ket {16, 17}) = - ket {16} := by
  refine ⟨by decide, by decide, by decide, ?_⟩
  have h : action (c 17 : MMap Nat Int) = annihilate 17 := by
    simp [c, makeCanonical, opAct]
  rw [h, annihilate_ket]
  have h1 : ({16, 17} : Finset Nat).erase 17 = {16} := by decide
  have h2 : (sgn 17 ({16, 17} : Finset Nat) : Int) = -1 := by decide
  simp [h1, h2]

end Verif.Imp
