import Verif.Hilbert.PartitionProps
import Mathlib.Tactic.Linarith

/-!
# Phase II of the automatic partition: `merge_subspaces`
-/

namespace Verif.Partition

open Relation

variable {K : Type} [DecidableEq K] [Zero K]

/-! ### connections -/

theorem mem_insertMM (e x : Nat × Nat) (l : List (Nat × Nat)) : x ∈ insertMM e l ↔ x = e ∨ x ∈ l := by
  induction l with
  | nil => simp [insertMM]
  | cons y l ih =>
    unfold insertMM
    split
    · simp only [List.mem_cons, ih]; tauto
    · simp

theorem mem_fold_fillOne (u : UF) (i : Nat) : ∀ (l : List (Nat × K)) (m : List (Nat × Nat)) (p : Nat × Nat),
    p ∈ l.foldl (fillOne u i) m ↔ p ∈ m ∨ ∃ f v, v ≠ 0 ∧ (f, v) ∈ l ∧ p = (find u i, find u f) := by
  intro l
  induction l with
  | nil => intro m p; simp
  | cons e l ih =>
    intro m p
    rw [List.foldl_cons, ih]
    unfold fillOne
    by_cases h0 : e.2 = 0
    · rw [if_pos h0]
      constructor
      · rintro (h | ⟨f, v, h1, h2, h3⟩)
        · exact Or.inl h
        · exact Or.inr ⟨f, v, h1, by simp [h2], h3⟩
      · rintro (h | ⟨f, v, h1, h2, h3⟩)
        · exact Or.inl h
        · rcases List.mem_cons.mp h2 with h | h
          · exact absurd (by rw [← h] at h0; exact h0) h1
          · exact Or.inr ⟨f, v, h1, h, h3⟩
    · rw [if_neg h0, mem_insertMM]
      constructor
      · rintro ((h | h) | ⟨f, v, h1, h2, h3⟩)
        · exact Or.inr ⟨e.1, e.2, h0, by simp, h⟩
        · exact Or.inl h
        · exact Or.inr ⟨f, v, h1, by simp [h2], h3⟩
      · rintro (h | ⟨f, v, h1, h2, h3⟩)
        · exact Or.inl (Or.inr h)
        · rcases List.mem_cons.mp h2 with h | h
          · subst h; exact Or.inl (Or.inl h3)
          · exact Or.inr ⟨f, v, h1, h, h3⟩

theorem mem_fillConn (u : UF) (n : Nat) (op : Op K) (p : Nat × Nat) :
    p ∈ fillConn u n op ↔ ∃ i f, i < n ∧ Connects op i f ∧ p = (find u i, find u f) := by
  have : ∀ (l : List Nat) (m : List (Nat × Nat)), p ∈ l.foldl (fun conn i => (op i).foldl (fillOne u i) conn) m ↔
      p ∈ m ∨ ∃ i ∈ l, ∃ f, Connects op i f ∧ p = (find u i, find u f) := by
    intro l
    induction l with
    | nil => intro m; simp
    | cons i l ih =>
      intro m
      rw [List.foldl_cons, ih, mem_fold_fillOne]
      constructor
      · rintro ((h | ⟨f, v, h1, h2, h3⟩) | ⟨j, hj, h⟩)
        · exact Or.inl h
        · exact Or.inr ⟨i, by simp, f, ⟨v, h1, h2⟩, h3⟩
        · exact Or.inr ⟨j, by simp [hj], h⟩
      · rintro (h | ⟨j, hj, f, ⟨v, h1, h2⟩, h3⟩)
        · exact Or.inl (Or.inl h)
        · rcases List.mem_cons.mp hj with rfl | hj
          · exact Or.inl (Or.inr ⟨f, v, h1, h2, h3⟩)
          · exact Or.inr ⟨j, hj, f, ⟨v, h1, h2⟩, h3⟩
  unfold fillConn
  rw [this]
  constructor
  · rintro (h | ⟨i, hi, f, h⟩)
    · cases h
    · exact ⟨i, f, List.mem_range.mp hi, h⟩
  · rintro ⟨i, f, hi, h⟩
    exact Or.inr ⟨i, List.mem_range.mpr hi, f, h⟩

theorem takeKey_some {k f : Nat} {rest : List (Nat × Nat)} : ∀ {l : List (Nat × Nat)}, takeKey k l = some (f, rest) →
    (k, f) ∈ l ∧ (∀ e ∈ rest, e ∈ l) ∧ (∀ e ∈ l, e = (k, f) ∨ e ∈ rest) ∧ rest.length + 1 = l.length := by
  intro l
  induction l generalizing rest with
  | nil => intro h; cases h
  | cons x l ih =>
    intro h
    unfold takeKey at h
    split at h
    · rename_i hx
      simp only [Option.some.injEq, Prod.mk.injEq] at h
      obtain ⟨rfl, rfl⟩ := h
      subst hx
      refine ⟨by simp, fun e he => by simp [he], fun e he => ?_, rfl⟩
      rcases List.mem_cons.mp he with rfl | he
      · exact Or.inl rfl
      · exact Or.inr he
    · simp only [Option.map_eq_some_iff, Prod.mk.injEq, Prod.exists] at h
      obtain ⟨a, b, hab, rfl, rfl⟩ := h
      obtain ⟨h1, h2, h3, h4⟩ := ih hab
      refine ⟨by simp [h1], fun e he => ?_, fun e he => ?_, by simp [h4]⟩
      · rcases List.mem_cons.mp he with rfl | he
        · simp
        · simp [h2 e he]
      · rcases List.mem_cons.mp he with rfl | he
        · exact Or.inr (by simp)
        · rcases h3 e he with h | h
          · exact Or.inl h
          · exact Or.inr (by simp [h])

theorem takeKey_none {k : Nat} : ∀ {l : List (Nat × Nat)}, takeKey k l = none → ∀ f, (k, f) ∉ l := by
  intro l
  induction l with
  | nil => intro _ f; simp
  | cons x l ih =>
    intro h f
    unfold takeKey at h
    split at h
    · cases h
    · rename_i hx
      have h := ih (by simpa using h) f
      simp only [List.mem_cons, not_or]
      exact ⟨fun e => hx (by rw [← e]), h⟩

/-! ### one traversal -/

theorem edges_setEdges (z : Zig) (d up : Bool) (l : List (Nat × Nat)) :
    (z.setEdges up l).edges d = if d = up then l else z.edges d := by
  cases d <;> cases up <;> simp [Zig.setEdges, Zig.edges]

theorem zigLink_edges (w : UF → Nat → Nat → Bool) (lower upper : Nat) (z : Zig) (up d : Bool) (f : Nat) (rest : List (Nat × Nat)) :
    (zigLink w lower upper z up f rest).edges d = if d = up then rest else z.edges d := by
  have : (zigLink w lower upper z up f rest).edges d = (z.setEdges up rest).edges d := rfl
  rw [this, edges_setEdges]

theorem count_edges (z : Zig) (up : Bool) : z.cd.length + z.c.length = (z.edges up).length + (z.edges (!up)).length := by
  cases up <;> simp [Zig.edges, Nat.add_comm]

/-- the effect of a traversal -/
structure ZigPost (lower upper : Nat) (z z' : Zig) (i : Nat) (up : Bool) : Prop where
  sub : ∀ d, ∀ e ∈ z'.edges d, e ∈ z.edges d
  len : z'.cd.length + z'.c.length ≤ z.cd.length + z.c.length
  /-- nothing is left to visit from the start -/
  done : ∀ f, (i, f) ∉ z'.edges up
  /-- nothing is left to visit from the end of a visited connection -/
  closed : ∀ d x y, (x, y) ∈ z.edges d → (x, y) ∉ z'.edges d → ∀ f, (y, f) ∉ z'.edges (!d)
  /-- every visited connection starts at the start or at the end of a visited one -/
  reach : ∀ d x y, (x, y) ∈ z.edges d → (x, y) ∉ z'.edges d →
    (x = i ∧ d = up) ∨ ∃ x', (x', x) ∈ z.edges (!d) ∧ (x', x) ∉ z'.edges (!d)
  /-- the ends of visited connections are joined -/
  joined : ∀ d x y, (x, y) ∈ z.edges d → (x, y) ∉ z'.edges d → find z'.uf y = find z'.uf (if d then upper else lower)

theorem zig_coarser (w : UF → Nat → Nat → Bool) {n : Nat} {lower upper : Nat} (hlo : lower < n) (hup : upper < n) :
    ∀ (fuel : Nat) (z : Zig) (i : Nat) (up : Bool), Valid z.uf n → (∀ d, ∀ e ∈ z.edges d, e.1 < n ∧ e.2 < n) →
      Valid (zig w lower upper fuel z i up).uf n ∧ (∀ d, ∀ e ∈ (zig w lower upper fuel z i up).edges d, e ∈ z.edges d) ∧
      (∀ a b, find z.uf a = find z.uf b → find (zig w lower upper fuel z i up).uf a = find (zig w lower upper fuel z i up).uf b) := by
  intro fuel
  induction fuel with
  | zero => intro z i up hv _; exact ⟨hv, fun _ _ h => h, fun _ _ h => h⟩
  | succ fuel ih =>
    intro z i up hv hb
    unfold zig
    cases ht : takeKey i (z.edges up) with
    | none => exact ⟨hv, fun _ _ h => h, fun _ _ h => h⟩
    | some r =>
      obtain ⟨f, rest⟩ := r
      simp only
      obtain ⟨h1, h2, h3, h4⟩ := takeKey_some ht
      have hf := (hb up _ h1).2
      have hx : (if up then upper else lower) < n := by cases up <;> assumption
      have hv1 : Valid (zigLink w lower upper z up f rest).uf n := link_valid w hv hf hx
      have hs1 : ∀ d, ∀ e ∈ (zigLink w lower upper z up f rest).edges d, e ∈ z.edges d := by
        intro d e he
        rw [zigLink_edges] at he
        split at he
        · rename_i hd; subst hd; exact h2 e he
        · exact he
      obtain ⟨a1, a2, a3⟩ := ih _ f (!up) hv1 (fun d e he => hb d e (hs1 d e he))
      obtain ⟨b1, b2, b3⟩ := ih _ i up a1 (fun d e he => hb d e (hs1 d e (a2 d e he)))
      refine ⟨b1, fun d e he => hs1 d e (a2 d e (b2 d e he)), fun a b hab => b3 a b (a3 a b ?_)⟩
      exact (link_rel w hv hf hx a b).mpr (Or.inl hab)

theorem zig_post (w : UF → Nat → Nat → Bool) {n : Nat} {lower upper : Nat} (hlo : lower < n) (hup : upper < n) :
    ∀ (fuel : Nat) (z : Zig) (i : Nat) (up : Bool), Valid z.uf n → (∀ d, ∀ e ∈ z.edges d, e.1 < n ∧ e.2 < n) →
      z.cd.length + z.c.length + 1 ≤ fuel → ZigPost lower upper z (zig w lower upper fuel z i up) i up := by
  intro fuel
  induction fuel with
  | zero => intro z i up _ _ h; omega
  | succ fuel ih =>
    intro z i up hv hb hfuel
    unfold zig
    cases ht : takeKey i (z.edges up) with
    | none =>
      have h := takeKey_none ht
      exact ⟨fun _ _ h => h, Nat.le_refl _, h, fun d x y h1 h2 => absurd h1 h2, fun d x y h1 h2 => absurd h1 h2, fun d x y h1 h2 => absurd h1 h2⟩
    | some r =>
      obtain ⟨f, rest⟩ := r
      simp only
      obtain ⟨h1, h2, h3, h4⟩ := takeKey_some ht
      have hf := (hb up _ h1).2
      have hx : (if up then upper else lower) < n := by cases up <;> assumption
      have hv1 : Valid (zigLink w lower upper z up f rest).uf n := link_valid w hv hf hx
      have hs1 : ∀ d, ∀ e ∈ (zigLink w lower upper z up f rest).edges d, e ∈ z.edges d := by
        intro d e he
        rw [zigLink_edges] at he
        split at he
        · rename_i hd; subst hd; exact h2 e he
        · exact he
      have hb1 := fun d e he => hb d e (hs1 d e he)
      have hlen1 : (zigLink w lower upper z up f rest).cd.length + (zigLink w lower upper z up f rest).c.length + 1 = z.cd.length + z.c.length := by
        rw [count_edges _ up, count_edges z up, zigLink_edges, zigLink_edges, if_pos rfl, if_neg (by cases up <;> decide)]
        omega
      generalize hz1 : zigLink w lower upper z up f rest = z1 at *
      obtain ⟨va, sa, ca⟩ := zig_coarser w hlo hup fuel z1 f (!up) hv1 hb1
      have pa := ih z1 f (!up) hv1 hb1 (by omega)
      generalize hz2 : zig w lower upper fuel z1 f (!up) = z2 at *
      have hb2 := fun d e he => hb1 d e (sa d e he)
      have pb := ih z2 i up va hb2 (by have := pa.len; omega)
      obtain ⟨vb, sb, cb⟩ := zig_coarser w hlo hup fuel z2 i up va hb2
      generalize zig w lower upper fuel z2 i up = z3 at *
      -- a connection that disappeared disappeared in one of the three steps
      have key : ∀ d x y, (x, y) ∈ z.edges d → (x, y) ∉ z3.edges d →
          ((x, y) = (i, f) ∧ d = up) ∨ ((x, y) ∈ z1.edges d ∧ (x, y) ∉ z2.edges d) ∨ ((x, y) ∈ z2.edges d ∧ (x, y) ∉ z3.edges d) := by
        intro d x y hin hout
        by_cases hi1 : (x, y) ∈ z1.edges d
        · by_cases hi2 : (x, y) ∈ z2.edges d
          · exact Or.inr (Or.inr ⟨hi2, hout⟩)
          · exact Or.inr (Or.inl ⟨hi1, hi2⟩)
        · left
          rw [← hz1, zigLink_edges] at hi1
          split at hi1
          · rename_i hd
            subst hd
            rcases h3 _ hin with h | h
            · exact ⟨h, rfl⟩
            · exact absurd h hi1
          · exact absurd hin hi1
      refine ⟨fun d e he => hs1 d e (sa d e (sb d e he)), by have := pa.len; have := pb.len; omega, pb.done, ?_, ?_, ?_⟩
      · intro d x y hin hout g hg
        rcases key d x y hin hout with ⟨h, rfl⟩ | ⟨h, h'⟩ | ⟨h, h'⟩
        · simp only [Prod.mk.injEq] at h
          obtain ⟨rfl, rfl⟩ := h
          exact pa.done g (sb _ _ hg)
        · exact pa.closed d x y h h' g (sb _ _ hg)
        · exact pb.closed d x y h h' g hg
      · intro d x y hin hout
        rcases key d x y hin hout with ⟨h, rfl⟩ | ⟨h, h'⟩ | ⟨h, h'⟩
        · simp only [Prod.mk.injEq] at h
          exact Or.inl ⟨h.1, rfl⟩
        · rcases pa.reach d x y h h' with ⟨rfl, rfl⟩ | ⟨x', hx', hx''⟩
          · right
            rw [Bool.not_not]
            exact ⟨i, h1, pb.done _⟩
          · exact Or.inr ⟨x', hs1 _ _ hx', fun hh => hx'' (sb _ _ hh)⟩
        · rcases pb.reach d x y h h' with ⟨rfl, rfl⟩ | ⟨x', hx', hx''⟩
          · exact Or.inl ⟨rfl, rfl⟩
          · exact Or.inr ⟨x', hs1 _ _ (sa _ _ hx'), hx''⟩
      · intro d x y hin hout
        rcases key d x y hin hout with ⟨h, rfl⟩ | ⟨h, h'⟩ | ⟨h, h'⟩
        · simp only [Prod.mk.injEq] at h
          obtain ⟨rfl, rfl⟩ := h
          apply cb
          apply ca
          rw [← hz1]
          exact (link_rel w hv hf hx _ _).mpr (Or.inr (Or.inl ⟨rfl, rfl⟩))
        · exact cb _ _ (pa.joined d x y h h')
        · exact pb.joined d x y h h'

/-! ### soundness of one traversal -/

/-- lower ends connected by an even walk -/
def LL (cd : List (Nat × Nat)) : Nat → Nat → Prop := ReflTransGen (fun x x' => ∃ y, (x, y) ∈ cd ∧ (x', y) ∈ cd)
/-- upper ends connected by an even walk -/
def UU (cd : List (Nat × Nat)) : Nat → Nat → Prop := ReflTransGen (fun y y' => ∃ x, (x, y) ∈ cd ∧ (x, y') ∈ cd)

theorem UU_of_LL {cd : List (Nat × Nat)} {x x' y y' : Nat} (h : LL cd x x') (hy : (x, y) ∈ cd) (hy' : (x', y') ∈ cd) : UU cd y y' := by
  induction h generalizing y' with
  | refl => exact ReflTransGen.single ⟨x, hy, hy'⟩
  | tail _ hs ih =>
    obtain ⟨z, h1, h2⟩ := hs
    exact (ih h1).tail ⟨_, h2, hy'⟩

theorem LL_of_UU {cd : List (Nat × Nat)} {x x' y y' : Nat} (h : UU cd y y') (hy : (x, y) ∈ cd) (hy' : (x', y') ∈ cd) : LL cd x x' := by
  induction h generalizing x' with
  | refl => exact ReflTransGen.single ⟨y, hy, hy'⟩
  | tail _ hs ih =>
    obtain ⟨z, h1, h2⟩ := hs
    exact (ih h1).tail ⟨_, h2, hy'⟩

theorem zig_sound (w : UF → Nat → Nat → Bool) {n : Nat} {lower upper : Nat} (hlo : lower < n) (hup : upper < n) (cd : List (Nat × Nat))
    (h0 : (lower, upper) ∈ cd) (R : Nat → Nat → Prop) (hR : Equivalence R) (hLL : ∀ x x', LL cd x x' → R x x') (hUU : ∀ x x', UU cd x x' → R x x') :
    ∀ (fuel : Nat) (z : Zig) (i : Nat) (up : Bool), Valid z.uf n → (∀ d, ∀ e ∈ z.edges d, e.1 < n ∧ e.2 < n) →
      (∀ e ∈ z.cd, e ∈ cd) → (∀ e ∈ z.c, (e.2, e.1) ∈ cd) → (if up then LL cd lower i else UU cd upper i) →
      (∀ a b, find z.uf a = find z.uf b → R a b) →
      ∀ a b, find (zig w lower upper fuel z i up).uf a = find (zig w lower upper fuel z i up).uf b → R a b := by
  intro fuel
  induction fuel with
  | zero => intro z i up _ _ _ _ _ h; exact h
  | succ fuel ih =>
    intro z i up hv hb hcd hc hi hrel
    unfold zig
    cases ht : takeKey i (z.edges up) with
    | none => exact hrel
    | some r =>
      obtain ⟨f, rest⟩ := r
      simp only
      obtain ⟨h1, h2, h3, h4⟩ := takeKey_some ht
      have hf := (hb up _ h1).2
      have hx : (if up then upper else lower) < n := by cases up <;> assumption
      have hv1 : Valid (zigLink w lower upper z up f rest).uf n := link_valid w hv hf hx
      have hs1 : ∀ d, ∀ e ∈ (zigLink w lower upper z up f rest).edges d, e ∈ z.edges d := by
        intro d e he
        rw [zigLink_edges] at he
        split at he
        · rename_i hd; subst hd; exact h2 e he
        · exact he
      have hnext : if (!up) then LL cd lower f else UU cd upper f := by
        cases up
        · simp only [Bool.not_false, if_true]
          simp only [Bool.false_eq_true, if_false] at hi
          exact LL_of_UU hi h0 (hc _ h1)
        · simp only [Bool.not_true, Bool.false_eq_true, if_false]
          simp only [if_true] at hi
          exact UU_of_LL hi h0 (hcd _ h1)
      have hfx : R f (if up then upper else lower) := by
        cases up
        · exact hR.symm (hLL _ _ (by simpa using hnext))
        · exact hR.symm (hUU _ _ (by simpa using hnext))
      have hrel1 : ∀ a b, find (zigLink w lower upper z up f rest).uf a = find (zigLink w lower upper z up f rest).uf b → R a b := by
        intro a b hab
        rcases (link_rel w hv hf hx a b).mp hab with h | ⟨h, h'⟩ | ⟨h, h'⟩
        · exact hrel a b h
        · exact hR.trans (hR.trans (hrel _ _ h) hfx) (hR.symm (hrel _ _ h'))
        · exact hR.trans (hR.trans (hrel _ _ h) (hR.symm hfx)) (hR.symm (hrel _ _ h'))
      obtain ⟨va, sa, _⟩ := zig_coarser w hlo hup fuel (zigLink w lower upper z up f rest) f (!up) hv1 (fun d e he => hb d e (hs1 d e he))
      apply ih _ i up va
      · exact fun d e he => hb d e (hs1 d e (sa d e he))
      · exact fun e he => hcd e (hs1 true e (sa true e he))
      · exact fun e he => hc e (hs1 false e (sa false e he))
      · exact hi
      · exact ih _ f (!up) hv1 (fun d e he => hb d e (hs1 d e he)) (fun e he => hcd e (hs1 true e he)) (fun e he => hc e (hs1 false e he)) hnext hrel1

/-! ### the outer loop -/

/-- invariant of the outer loop, with the connections `cd0`, `c0` found at the start -/
structure LoopInv (n : Nat) (cd0 c0 : List (Nat × Nat)) (z : Zig) : Prop where
  valid : Valid z.uf n
  subCd : ∀ e ∈ z.cd, e ∈ cd0
  subC : ∀ e ∈ z.c, e ∈ c0
  /-- a visited connection leaves nothing at its two ends -/
  ends : ∀ x y, (x, y) ∈ cd0 → (x, y) ∉ z.cd → (∀ f, (x, f) ∉ z.cd) ∧ (∀ f, (y, f) ∉ z.c)
  endsC : ∀ x y, (y, x) ∈ c0 → (y, x) ∉ z.c → (∀ f, (x, f) ∉ z.cd) ∧ (∀ f, (y, f) ∉ z.c)
  upper : ∀ x y y', (x, y) ∈ cd0 → (x, y') ∈ cd0 → (x, y) ∉ z.cd → find z.uf y = find z.uf y'
  lower : ∀ x x' y, (y, x) ∈ c0 → (y, x') ∈ c0 → (y, x) ∉ z.c → find z.uf x = find z.uf x'

theorem loop_step (w : UF → Nat → Nat → Bool) {n : Nat} {cd0 c0 : List (Nat × Nat)} (hb : ∀ e ∈ cd0, e.1 < n ∧ e.2 < n)
    (hsym : ∀ x y, (x, y) ∈ cd0 ↔ (y, x) ∈ c0) (z : Zig) (hz : LoopInv n cd0 c0 z) {lo up : Nat} (h0 : (lo, up) ∈ z.cd) :
    LoopInv n cd0 c0 (zig w lo up (z.cd.length + z.c.length + 1) z lo true) ∧
      (zig w lo up (z.cd.length + z.c.length + 1) z lo true).cd.length < z.cd.length := by
  have hlo := (hb _ (hz.subCd _ h0)).1
  have hup := (hb _ (hz.subCd _ h0)).2
  have hbz : ∀ d, ∀ e ∈ z.edges d, e.1 < n ∧ e.2 < n := by
    intro d e he
    cases d
    · have := hb _ ((hsym e.2 e.1).mpr (hz.subC e he)); exact ⟨this.2, this.1⟩
    · exact hb e (hz.subCd e he)
  obtain ⟨hv, hsub, hco⟩ := zig_coarser w hlo hup (z.cd.length + z.c.length + 1) z lo true hz.valid hbz
  have hp := zig_post w hlo hup (z.cd.length + z.c.length + 1) z lo true hz.valid hbz (Nat.le_refl _)
  -- the traversal shortens the list of connections
  have hshort : (zig w lo up (z.cd.length + z.c.length + 1) z lo true).cd.length < z.cd.length := by
    have hmono : ∀ (fuel : Nat) (z : Zig) (i : Nat) (b : Bool), (zig w lo up fuel z i b).cd.length ≤ z.cd.length := by
      intro fuel
      induction fuel with
      | zero => intro z i b; exact Nat.le_refl _
      | succ fuel ih =>
        intro z i b
        unfold zig
        cases ht : takeKey i (z.edges b) with
        | none => exact Nat.le_refl _
        | some r =>
          obtain ⟨f, rest⟩ := r
          simp only
          refine le_trans (ih _ _ _) (le_trans (ih _ _ _) ?_)
          have h4 := (takeKey_some ht).2.2.2
          cases b
          · exact Nat.le_refl _
          · have : (zigLink w lo up z true f rest).cd = rest := rfl
            rw [this]
            simp only [Zig.edges, if_true] at h4
            omega
    unfold zig
    cases ht : takeKey lo (z.edges true) with
    | none => exact absurd h0 (takeKey_none ht up)
    | some r =>
      obtain ⟨f, rest⟩ := r
      simp only
      have h4 := (takeKey_some ht).2.2.2
      refine Nat.lt_of_le_of_lt (le_trans (hmono _ _ _ _) (hmono _ _ _ _)) ?_
      have : (zigLink w lo up z true f rest).cd = rest := rfl
      rw [this]
      simp only [Zig.edges, if_true] at h4
      omega
  refine ⟨?_, hshort⟩
  generalize zig w lo up (z.cd.length + z.c.length + 1) z lo true = z' at *
  have cdE : ∀ e, e ∈ z'.cd ↔ e ∈ z'.edges true := fun _ => Iff.rfl
  have cE : ∀ e, e ∈ z'.c ↔ e ∈ z'.edges false := fun _ => Iff.rfl
  -- connections that disappeared in this traversal leave nothing at both ends
  have srcUp : ∀ x y, (x, y) ∈ z.cd → (x, y) ∉ z'.cd → ∀ f, (x, f) ∉ z'.cd := by
    intro x y h1 h2 f
    rcases hp.reach true x y h1 h2 with ⟨rfl, _⟩ | ⟨x', hx, hx'⟩
    · exact hp.done f
    · exact hp.closed (!true) x' x hx hx' f
  have srcDown : ∀ y x, (y, x) ∈ z.c → (y, x) ∉ z'.c → ∀ f, (y, f) ∉ z'.c := by
    intro x y h1 h2 f
    rcases hp.reach false x y h1 h2 with ⟨_, h⟩ | ⟨x', hx, hx'⟩
    · cases h
    · exact hp.closed (!false) x' x hx hx' f
  refine ⟨hv, fun e he => hz.subCd e (hsub true e he), fun e he => hz.subC e (hsub false e he), ?_, ?_, ?_, ?_⟩
  · intro x y hin hout
    by_cases hm : (x, y) ∈ z.cd
    · exact ⟨srcUp x y hm hout, hp.closed true x y hm hout⟩
    · obtain ⟨h1, h2⟩ := hz.ends x y hin hm
      exact ⟨fun f hf => h1 f (hsub true _ hf), fun f hf => h2 f (hsub false _ hf)⟩
  · intro x y hin hout
    by_cases hm : (y, x) ∈ z.c
    · exact ⟨hp.closed false y x hm hout, srcDown y x hm hout⟩
    · obtain ⟨h1, h2⟩ := hz.endsC x y hin hm
      exact ⟨fun f hf => h1 f (hsub true _ hf), fun f hf => h2 f (hsub false _ hf)⟩
  · intro x y y' hin hin' hout
    by_cases hm : (x, y) ∈ z.cd
    · have hout' : (x, y') ∉ z'.cd := srcUp x y hm hout y'
      by_cases hm' : (x, y') ∈ z.cd
      · have a := hp.joined true x y hm hout
        have b := hp.joined true x y' hm' hout'
        rw [a, b]
      · exact absurd hm ((hz.ends x y' hin' hm').1 y)
    · exact hco _ _ (hz.upper x y y' hin hin' hm)
  · intro x x' y hin hin' hout
    by_cases hm : (y, x) ∈ z.c
    · have hout' : (y, x') ∉ z'.c := srcDown y x hm hout x'
      by_cases hm' : (y, x') ∈ z.c
      · have a := hp.joined false y x hm hout
        have b := hp.joined false y x' hm' hout'
        rw [a, b]
      · exact absurd hm ((hz.endsC x' y hin' hm').2 x)
    · exact hco _ _ (hz.lower x x' y hin hin' hm)

theorem zigLoop_post (w : UF → Nat → Nat → Bool) {n : Nat} {cd0 c0 : List (Nat × Nat)} (hb : ∀ e ∈ cd0, e.1 < n ∧ e.2 < n)
    (hsym : ∀ x y, (x, y) ∈ cd0 ↔ (y, x) ∈ c0) : ∀ (fuel : Nat) (z : Zig), z.cd.length ≤ fuel → LoopInv n cd0 c0 z →
      LoopInv n cd0 c0 (zigLoop w fuel z) ∧ (zigLoop w fuel z).cd = [] := by
  intro fuel
  induction fuel with
  | zero =>
    intro z hl hz
    exact ⟨hz, List.length_eq_zero_iff.mp (by simpa [zigLoop] using hl)⟩
  | succ fuel ih =>
    intro z hl hz
    unfold zigLoop
    cases hcd : z.cd with
    | nil => exact ⟨hz, hcd⟩
    | cons e l =>
      obtain ⟨lo, up⟩ := e
      simp only
      have h0 : (lo, up) ∈ z.cd := by rw [hcd]; simp
      obtain ⟨h1, h2⟩ := loop_step w hb hsym z hz h0
      rw [← hcd]
      exact ih _ (by omega) h1

theorem zigLoop_sound (w : UF → Nat → Nat → Bool) {n : Nat} {cd0 c0 : List (Nat × Nat)} (hb : ∀ e ∈ cd0, e.1 < n ∧ e.2 < n)
    (hsym : ∀ x y, (x, y) ∈ cd0 ↔ (y, x) ∈ c0) (R : Nat → Nat → Prop) (hR : Equivalence R)
    (hLL : ∀ x x', LL cd0 x x' → R x x') (hUU : ∀ x x', UU cd0 x x' → R x x') : ∀ (fuel : Nat) (z : Zig),
      Valid z.uf n → (∀ e ∈ z.cd, e ∈ cd0) → (∀ e ∈ z.c, e ∈ c0) → (∀ a b, find z.uf a = find z.uf b → R a b) →
      ∀ a b, find (zigLoop w fuel z).uf a = find (zigLoop w fuel z).uf b → R a b := by
  intro fuel
  induction fuel with
  | zero => intro z _ _ _ h; exact h
  | succ fuel ih =>
    intro z hv hcd hc hrel
    unfold zigLoop
    cases hz : z.cd with
    | nil => exact hrel
    | cons e l =>
      obtain ⟨lo, up⟩ := e
      simp only
      have h0 : (lo, up) ∈ cd0 := hcd _ (by rw [hz]; simp)
      have hbz : ∀ d, ∀ e ∈ z.edges d, e.1 < n ∧ e.2 < n := by
        intro d e he
        cases d
        · have := hb _ ((hsym e.2 e.1).mpr (hc e he)); exact ⟨this.2, this.1⟩
        · exact hb e (hcd e he)
      rw [← hz]
      obtain ⟨hv', hsub, _⟩ := zig_coarser w (hb _ h0).1 (hb _ h0).2 (z.cd.length + z.c.length + 1) z lo true hv hbz
      refine ih _ hv' (fun e he => hcd e (hsub true e he)) (fun e he => hc e (hsub false e he)) ?_
      exact zig_sound w (hb _ h0).1 (hb _ h0).2 cd0 h0 R hR hLL hUU _ z lo true hv hbz hcd
        (fun e he => (hsym _ _).mpr (hc e he)) (by simp only [if_true]; exact ReflTransGen.refl) hrel

/-! ### the merged partition -/

/-- `C` has the matrix elements of the conjugate of `Cd` (only which ones vanish matters) -/
def Conjugate (n : Nat) (Cd C : Op K) : Prop := ∀ i < n, ∀ j < n, (Connects Cd i j ↔ Connects C j i)

theorem merge_gen (w : UF → Nat → Nat → Bool) (u : UF) (n : Nat) (hv : Valid u n) (Cd C : Op K) (hCd : Cd.Within n) (hC : C.Within n)
    (hconj : Conjugate n Cd C) :
    Valid (merge w u n Cd C) n ∧ Gen (merge w u n Cd C) (MergeStep n (fun i j => find u i = find u j) Cd) := by
  have target : ∀ {op : Op K}, op.Within n → ∀ {i f}, i < n → Connects op i f → f < n := by
    intro op hop i f hi ⟨v, _, hm⟩; exact hop i hi _ hm
  have hb : ∀ e ∈ fillConn u n Cd, e.1 < n ∧ e.2 < n := by
    intro e he
    obtain ⟨i, f, hi, hc, rfl⟩ := (mem_fillConn u n Cd e).mp he
    exact ⟨hv.lt i hi, hv.lt f (target hCd hi hc)⟩
  have hsym : ∀ x y, (x, y) ∈ fillConn u n Cd ↔ (y, x) ∈ fillConn u n C := by
    intro x y
    rw [mem_fillConn, mem_fillConn]
    constructor
    · rintro ⟨i, f, hi, hc, h⟩
      have hf := target hCd hi hc
      simp only [Prod.mk.injEq] at h
      exact ⟨f, i, hf, (hconj i hi f hf).mp hc, by simp [h]⟩
    · rintro ⟨i, f, hi, hc, h⟩
      have hf := target hC hi hc
      simp only [Prod.mk.injEq] at h
      exact ⟨f, i, hf, (hconj f hf i hi).mpr hc, by simp [h]⟩
  have hinit : LoopInv n (fillConn u n Cd) (fillConn u n C) ⟨u, fillConn u n Cd, fillConn u n C⟩ :=
    ⟨hv, fun _ h => h, fun _ h => h, fun _ _ h h' => absurd h h', fun _ _ h h' => absurd h h',
      fun _ _ _ h _ h' => absurd h h', fun _ _ _ h _ h' => absurd h h'⟩
  obtain ⟨hfin, hempty⟩ := zigLoop_post w hb hsym (fillConn u n Cd).length _ (Nat.le_refl _) hinit
  have hcempty : ∀ e, e ∉ (zigLoop w (fillConn u n Cd).length ⟨u, fillConn u n Cd, fillConn u n C⟩).c := by
    rintro ⟨y, x⟩ he
    have h1 := hfin.subC _ he
    have h2 := (hfin.ends x y ((hsym x y).mpr h1) (by rw [hempty]; simp)).2 x
    exact h2 he
  have hcoarse : ∀ (fuel : Nat) (z : Zig), LoopInv n (fillConn u n Cd) (fillConn u n C) z → ∀ a b, find z.uf a = find z.uf b →
      find (zigLoop w fuel z).uf a = find (zigLoop w fuel z).uf b := by
    intro fuel
    induction fuel with
    | zero => intro z _ a b h; exact h
    | succ fuel ih =>
      intro z hz a b h
      unfold zigLoop
      cases hcd : z.cd with
      | nil => exact h
      | cons e l =>
        obtain ⟨lo, up⟩ := e
        simp only
        have h0 : (lo, up) ∈ z.cd := by rw [hcd]; simp
        rw [← hcd]
        have hbz : ∀ d, ∀ e ∈ z.edges d, e.1 < n ∧ e.2 < n := by
          intro d e he
          cases d
          · have := hb _ ((hsym e.2 e.1).mpr (hz.subC e he)); exact ⟨this.2, this.1⟩
          · exact hb e (hz.subCd e he)
        apply ih _ (loop_step w hb hsym z hz h0).1
        exact (zig_coarser w (hbz true _ h0).1 (hbz true _ h0).2 _ z lo true hz.valid hbz).2.2 a b h
  refine ⟨hfin.valid, fun i j => ⟨fun h => ?_, fun h => ?_⟩⟩
  · -- soundness
    have hstep : ∀ {a b}, MergeStep n (fun i j => find u i = find u j) Cd a b → EqvGen (MergeStep n (fun i j => find u i = find u j) Cd) a b :=
      fun h => EqvGen.rel _ _ h
    have hrep : ∀ a, EqvGen (MergeStep n (fun i j => find u i = find u j) Cd) a (find u a) := fun a => hstep (.old (hv.idem a).symm)
    refine zigLoop_sound w hb hsym _ (EqvGen.is_equivalence (MergeStep n (fun i j => find u i = find u j) Cd)) ?_ ?_ _ _ hv
      (fun _ h => h) (fun _ h => h) (fun a b hab => hstep (.old hab)) i j h
    · intro x x' hll
      induction hll with
      | refl => exact EqvGen.refl _
      | tail _ hs ih =>
        obtain ⟨y, h1, h2⟩ := hs
        obtain ⟨i, f, hi, hc, h⟩ := (mem_fillConn u n Cd _).mp h1
        obtain ⟨i', f', hi', hc', h'⟩ := (mem_fillConn u n Cd _).mp h2
        simp only [Prod.mk.injEq] at h h'
        obtain ⟨rfl, rfl⟩ := h
        obtain ⟨rfl, h'⟩ := h'
        refine ih.trans _ _ _ (((hrep i).symm _ _).trans _ _ _ ((hstep (.reaching hi hi' h' hc hc')).trans _ _ _ (hrep i')))
    · intro x x' huu
      induction huu with
      | refl => exact EqvGen.refl _
      | tail _ hs ih =>
        obtain ⟨y, h1, h2⟩ := hs
        obtain ⟨i, f, hi, hc, h⟩ := (mem_fillConn u n Cd _).mp h1
        obtain ⟨i', f', hi', hc', h'⟩ := (mem_fillConn u n Cd _).mp h2
        simp only [Prod.mk.injEq] at h h'
        obtain ⟨rfl, rfl⟩ := h
        obtain ⟨h', rfl⟩ := h'
        refine ih.trans _ _ _ (((hrep f).symm _ _).trans _ _ _ ((hstep (.reached hi hi' h' hc hc')).trans _ _ _ (hrep f')))
  · -- completeness
    refine eqvGen_of_le (R := fun i j => find (merge w u n Cd C) i = find (merge w u n Cd C) j)
      ⟨fun _ => rfl, fun h => h.symm, fun h h' => h.trans h'⟩ ?_ h
    have hold : ∀ a b, find u a = find u b → find (merge w u n Cd C) a = find (merge w u n Cd C) b := hcoarse _ _ hinit
    have hrep : ∀ a, find (merge w u n Cd C) a = find (merge w u n Cd C) (find u a) := fun a => hold _ _ (hv.idem a).symm
    intro a b hab
    cases hab with
    | old h => exact hold _ _ h
    | @reached k l _ _ hk hl hsame h1 h2 =>
      rw [hrep a, hrep b]
      apply hfin.upper (find u k)
      · exact (mem_fillConn u n Cd _).mpr ⟨k, a, hk, h1, rfl⟩
      · exact (mem_fillConn u n Cd _).mpr ⟨l, b, hl, h2, by rw [hsame]⟩
      · rw [hempty]; simp
    | @reaching k l _ _ hk hl hsame h1 h2 =>
      rw [hrep a, hrep b]
      apply hfin.lower _ _ (find u k)
      · exact (hsym _ _).mp ((mem_fillConn u n Cd _).mpr ⟨a, k, hk, h1, rfl⟩)
      · exact (hsym _ _).mp ((mem_fillConn u n Cd _).mpr ⟨b, l, hl, h2, by rw [hsame]⟩)
      · exact hcempty _

/-- **C17** (partial: the documented one-to-one claim is false, see below). For every partition, every
operator and its conjugate, whatever the union-find does about representatives: the merged partition is the
finest one in which no old subspace is split, all states reached by `Cd` from one old subspace are
together, and all states from which `Cd` reaches one old subspace are together. -/
theorem C17_merge_partial (w : UF → Nat → Nat → Bool) (u : UF) (n : Nat) (hv : Valid u n) (Cd C : Op K) (hCd : Cd.Within n) (hC : C.Within n)
    (hconj : Conjugate n Cd C) (i j : Nat) (hi : i < n) (_hj : j < n) :
    lookup (merge w u n Cd C) n i = lookup (merge w u n Cd C) n j ↔
      EqvGen (MergeStep n (fun i j => lookup u n i = lookup u n j ∧ i < n ∧ j < n) Cd) i j := by
  rw [lookup_eq_iff _ _ _ _ hi, (merge_gen w u n hv Cd C hCd hC hconj).2 i j]
  constructor
  · intro h
    refine eqvGen_lift ?_ h
    intro a b hab
    cases hab with
    | old h =>
      by_cases ha : a < n
      · have hb : b < n := by rw [← hv.lt_iff b, ← h, hv.lt_iff]; exact ha
        exact EqvGen.rel _ _ (.old ⟨(lookup_eq_iff u n a b ha).mpr h, ha, hb⟩)
      · have hb : ¬ b < n := by rw [← hv.lt_iff b, ← h, hv.lt_iff]; exact ha
        rw [find_ge (by rw [hv.len]; omega), find_ge (by rw [hv.len]; omega)] at h
        subst h
        exact EqvGen.refl _
    | reached hk hl hs h1 h2 => exact EqvGen.rel _ _ (.reached hk hl ⟨(lookup_eq_iff u n _ _ hk).mpr hs, hk, hl⟩ h1 h2)
    | @reaching k l _ _ hk hl hs h1 h2 =>
      obtain ⟨v, _, hm⟩ := id h1
      obtain ⟨v', _, hm'⟩ := id h2
      have hkn := hCd _ hk _ hm
      exact EqvGen.rel _ _ (.reaching hk hl ⟨(lookup_eq_iff u n k _ hkn).mpr hs, hkn, hCd _ hl _ hm'⟩ h1 h2)
  · intro h
    refine eqvGen_lift ?_ h
    intro a b hab
    cases hab with
    | old h => exact EqvGen.rel _ _ (.old ((lookup_eq_iff u n a b h.2.1).mp h.1))
    | reached hk hl hs h1 h2 => exact EqvGen.rel _ _ (.reached hk hl ((lookup_eq_iff u n _ _ hs.2.1).mp hs.1) h1 h2)
    | reaching hk hl hs h1 h2 => exact EqvGen.rel _ _ (.reaching hk hl ((lookup_eq_iff u n _ _ hs.2.1).mp hs.1) h1 h2)

/-- creation of one particle in orbital `k`, on occupation numbers written in binary -/
def create (k : Nat) : Op Int := fun i => if i.testBit k then [] else [(i + 2 ^ k, 1)]
def destroy (k : Nat) : Op Int := fun i => if i.testBit k then [(i - 2 ^ k, 1)] else []

example : (List.range 8).map (lookup (merge (fun _ _ _ => true) [0, 1, 2, 1, 4, 5, 6, 7] 8 (create 2) (destroy 2)) 8) = [0, 1, 2, 1, 3, 4, 5, 4] := by
  decide

/-- orbitals 0 (the one of `Cd`), 1, 2, 3 in the lowest four bits; the Hamiltonian connects 2 - 4, 3 - 10 and 5 - 12: subspaces
`{1, 2}` (states 2 and 4), `a = {01, 13}` (states 3 and 10) and `a' = {02, 23}` (states 5 and 12) -/
def exH17 : Op Int := fun i =>
  match i with | 2 => [(4, 1)] | 4 => [(2, 1)] | 3 => [(10, 1)] | 10 => [(3, 1)] | 5 => [(12, 1)] | 12 => [(5, 1)] | _ => []

def exMerged : UF := merge (fun _ _ _ => true) (ctor (fun _ _ _ => true) 16 exH17 false none).1 16 (create 0) (destroy 0)

/-- **C17 fails** as documented ("`Cd` and `C` generate only one-to-one connections between the subspaces"): in
this example the merge joins `a` and `a'` but not the two subspaces that `Cd` reaches from them. -/
theorem C17_not_one_to_one :
    ∃ s t t', t ≠ t' ∧ (s, t) ∈ findMappings exMerged 16 (create 0) false ∧ (s, t') ∈ findMappings exMerged 16 (create 0) false := by
  refine ⟨3, 8, 9, by decide, by decide +kernel, by decide +kernel⟩

end Verif.Partition
