import Mathlib.Order.Defs.LinearOrder
import Mathlib.Data.List.Sort
import Mathlib.Data.Nat.Basic
import Mathlib.Order.Basic
import Mathlib.Tactic.Common

/-!
# Measures

Source: `/repo/c++/triqs/mc_tools/mc_measure_set.hpp` and the registration functions and measurement of `mc_generic.hpp` (90-121, 279-283).

The `std::map` is an association list ordered by name. A measure object is a number (its identity); what it does is observed in a log of calls. Names are any
ordered type. Timers and reports are not modelled; the measures do not throw here.
-/

namespace Verif.Measures

/-! ## Model -/

/-- an element of the map: its name, the object held and `count_`, mc_measure_set.hpp:33-47 -/
structure Entry (N : Type) where
  name : N
  uid : Nat
  count : Nat

/-- a call of a user function -/
inductive Call (K : Type) where
  | aux (id : Nat)
  | accumulate (uid : Nat) (sign : K)
  | collect (uid : Nat)
deriving DecidableEq

structure State (N K : Type) where
  map : List (Entry N)
  aux : List Nat
  calls : List (Call K)

inductive Op (N K : Type) where
  /-- `add_measure` -/
  | insert (name : N) (uid : Nat)
  /-- `add_measure_aux` -/
  | addAux (id : Nat)
  /-- `rm_measure`, with the iterator of a measure -/
  | remove (uid : Nat)
  /-- `clear_measures` -/
  | clear
  /-- a measurement of `run` -/
  | measure (sign : K)
  /-- `collect_results` -/
  | collect

inductive Res (S : Type) where
  | ok (s : S)
  | throws (s : S)
  | undef

section
variable {N K : Type} [LinearOrder N]

/-- `has`, mc_measure_set.hpp:147 -/
def has (l : List (Entry N)) (n : N) : Bool := l.any (fun e => e.name = n)

/-- `emplace` of a name that is not in the map -/
def place (e : Entry N) : List (Entry N) → List (Entry N)
  | [] => [e]
  | a :: l => if e.name < a.name then e :: a :: l else a :: place e l

/-- `insert`, mc_measure_set.hpp:128-134 -/
def insert (s : State N K) (n : N) (uid : Nat) : Res (State N K) :=
  if has s.map n then .throws s else .ok { s with map := place ⟨n, uid, 0⟩ s.map }

/-- `remove`, mc_measure_set.hpp:139; an iterator that does not point into the map is undefined behaviour. -/
def remove (s : State N K) (uid : Nat) : Res (State N K) :=
  if s.map.any (fun e => e.uid = uid) then .ok { s with map := s.map.filter (fun e => e.uid ≠ uid) } else .undef

/-- `accumulate`, mc_measure_set.hpp:150-152 and 83-89: every element of the map in turn -/
def accumulate (sign : K) : List (Entry N) → List (Entry N) × List (Call K)
  | [] => ([], [])
  | e :: l => let r := accumulate sign l; ({ e with count := e.count + 1 } :: r.1, .accumulate e.uid sign :: r.2)

/-- the measurement of a cycle, mc_generic.hpp:278-282 -/
def measure (s : State N K) (sign : K) : State N K :=
  let r := accumulate sign s.map
  { s with map := r.1, calls := s.calls ++ s.aux.map .aux ++ r.2 }

/-- `collect_results`, mc_measure_set.hpp:188-190 -/
def collect (s : State N K) : State N K := { s with calls := s.calls ++ s.map.map (fun e => .collect e.uid) }

def step (s : State N K) : Op N K → Res (State N K)
  | .insert n u => insert s n u
  | .addAux i => .ok { s with aux := s.aux ++ [i] }
  | .remove u => remove s u
  | .clear => .ok { s with map := [] }
  | .measure k => .ok (measure s k)
  | .collect => .ok (collect s)

/-- a history; an operation that throws leaves the object as it is. -/
def history (s : State N K) : List (Op N K) → Option (State N K)
  | [] => some s
  | o :: l => match step s o with
    | .ok s => history s l
    | .throws s => history s l
    | .undef => none

def empty : State N K := ⟨[], [], []⟩

/-! ## Specification -/

/-- The measures registered after a history (the most recent operation first): `Reg h n u c` says that the object `u` is registered under the name `n` and that `c` measurements
took place since. -/
def Reg : List (Op N K) → N → Nat → Nat → Prop
  | [], _, _, _ => False
  | .insert n' u' :: h, n, u, c => Reg h n u c ∨ (n = n' ∧ u = u' ∧ c = 0 ∧ ∀ u'' c'', ¬Reg h n u'' c'')
  | .addAux _ :: h, n, u, c => Reg h n u c
  | .remove u' :: h, n, u, c => Reg h n u c ∧ u ≠ u'
  | .clear :: _, _, _, _ => False
  | .measure _ :: h, n, u, c => ∃ c', Reg h n u c' ∧ c = c' + 1
  | .collect :: h, n, u, c => Reg h n u c

/-- the common parts registered, in order -/
def auxs : List (Op N K) → List Nat
  | [] => []
  | .addAux i :: l => i :: auxs l
  | _ :: l => auxs l

/-! ## Proofs -/

theorem mem_place {e a : Entry N} {l : List (Entry N)} : a ∈ place e l ↔ a = e ∨ a ∈ l := by
  induction l with
  | nil => simp [place]
  | cons b l ih =>
    unfold place
    split_ifs
    · simp
    · simp only [List.mem_cons, ih]; tauto

theorem place_sorted {e : Entry N} {l : List (Entry N)} (h : l.Pairwise (fun a b => a.name < b.name)) (hn : ∀ a ∈ l, a.name ≠ e.name) :
    (place e l).Pairwise (fun a b => a.name < b.name) := by
  induction l with
  | nil => simp [place]
  | cons b l ih =>
    unfold place
    rw [List.pairwise_cons] at h
    split_ifs with hlt
    · rw [List.pairwise_cons]
      refine ⟨?_, List.pairwise_cons.2 h⟩
      intro a ha
      rcases List.mem_cons.1 ha with rfl | ha
      · exact hlt
      · exact lt_trans hlt (h.1 a ha)
    · rw [List.pairwise_cons]
      refine ⟨?_, ih h.2 (fun a ha => hn a (List.mem_cons_of_mem _ ha))⟩
      intro a ha
      rcases mem_place.1 ha with rfl | ha
      · exact lt_of_le_of_ne (not_lt.1 hlt) (hn b List.mem_cons_self)
      · exact h.1 a ha

omit [LinearOrder N] in
theorem accumulate_eq (k : K) (l : List (Entry N)) : accumulate k l = (l.map (fun e => { e with count := e.count + 1 }), l.map (fun e => .accumulate e.uid k)) := by
  induction l with
  | nil => rfl
  | cons e l ih => simp [accumulate, ih]

/-- the map holds the registered measures, in name order -/
def Good (h : List (Op N K)) (s : State N K) : Prop :=
  s.map.Pairwise (fun a b => a.name < b.name) ∧ (∀ n u c, (⟨n, u, c⟩ : Entry N) ∈ s.map ↔ Reg h n u c) ∧ s.aux = auxs h.reverse

theorem has_iff {h : List (Op N K)} {s : State N K} (g : Good h s) (n : N) : has s.map n = true ↔ ∃ u c, Reg h n u c := by
  unfold has
  rw [List.any_eq_true]
  constructor
  · rintro ⟨e, he, hn⟩
    simp only [decide_eq_true_eq] at hn
    subst hn
    exact ⟨e.uid, e.count, (g.2.1 _ _ _).1 he⟩
  · rintro ⟨u, c, hr⟩
    exact ⟨_, (g.2.1 _ _ _).2 hr, by simp⟩

omit [LinearOrder N] in
theorem auxs_append (l l' : List (Op N K)) : auxs (l ++ l') = auxs l ++ auxs l' := by
  induction l with
  | nil => rfl
  | cons o l ih => cases o <;> simp [auxs, ih]

theorem step_good {h : List (Op N K)} {s s' : State N K} {o : Op N K} (g : Good h s) (hs : step s o = .ok s' ∨ step s o = .throws s') : Good (o :: h) s' := by
  obtain ⟨g1, g2, g3⟩ := g
  cases o with
  | insert n u =>
    simp only [step, insert] at hs
    have hi := has_iff ⟨g1, g2, g3⟩ n
    by_cases hh : has s.map n = true
    · rw [if_pos hh] at hs
      obtain ⟨u0, c0, hr⟩ := hi.1 hh
      have : s' = s := by rcases hs with hs | hs <;> cases hs; rfl
      subst this
      refine ⟨g1, ?_, by rw [g3]; simp [auxs_append, auxs]⟩
      intro n' u' c'
      rw [g2]
      simp only [Reg]
      constructor
      · exact Or.inl
      · rintro (h | ⟨rfl, -, -, h⟩)
        · exact h
        · exact absurd hr (h _ _)
    · rw [if_neg hh] at hs
      have : s' = { s with map := place ⟨n, u, 0⟩ s.map } := by rcases hs with hs | hs <;> cases hs; rfl
      subst this
      have hno : ∀ u c, ¬Reg h n u c := fun u c hr => hh (hi.2 ⟨u, c, hr⟩)
      refine ⟨place_sorted g1 ?_, ?_, by simp only; rw [g3]; simp [auxs_append, auxs]⟩
      · intro a ha he
        simp only at he
        subst he
        exact hno _ _ ((g2 _ _ _).1 ha)
      · intro n' u' c'
        simp only
        rw [mem_place, g2]
        simp only [Reg, Entry.mk.injEq]
        constructor
        · rintro (⟨rfl, rfl, rfl⟩ | h)
          · exact Or.inr ⟨rfl, rfl, rfl, hno⟩
          · exact Or.inl h
        · rintro (h | ⟨rfl, rfl, rfl, -⟩)
          · exact Or.inr h
          · exact Or.inl ⟨rfl, rfl, rfl⟩
  | addAux i =>
    have : s' = { s with aux := s.aux ++ [i] } := by rcases hs with hs | hs <;> cases hs; rfl
    subst this
    exact ⟨g1, g2, by simp only; rw [g3]; simp [auxs_append, auxs]⟩
  | remove u =>
    simp only [step, remove] at hs
    split_ifs at hs with hh
    · have : s' = { s with map := s.map.filter (fun e => e.uid ≠ u) } := by rcases hs with hs | hs <;> cases hs; rfl
      subst this
      refine ⟨g1.filter _, ?_, by simp only; rw [g3]; simp [auxs_append, auxs]⟩
      intro n' u' c'
      simp only [List.mem_filter, g2, Reg]
      simp
    · rcases hs with hs | hs <;> cases hs
  | clear =>
    have : s' = { s with map := [] } := by rcases hs with hs | hs <;> cases hs; rfl
    subst this
    exact ⟨List.Pairwise.nil, by intro n u c; simp [Reg], by simp only; rw [g3]; simp [auxs_append, auxs]⟩
  | measure k =>
    have : s' = measure s k := by rcases hs with hs | hs <;> cases hs; rfl
    subst this
    simp only [measure, accumulate_eq]
    refine ⟨?_, ?_, by simp only; rw [g3]; simp [auxs_append, auxs]⟩
    · simp only [List.pairwise_map]; exact g1
    · intro n u c
      simp only [List.mem_map, Reg]
      constructor
      · rintro ⟨e, he, h⟩
        simp only [Entry.mk.injEq] at h
        obtain ⟨rfl, rfl, rfl⟩ := h
        exact ⟨e.count, (g2 _ _ _).1 he, rfl⟩
      · rintro ⟨c', hr, rfl⟩
        exact ⟨_, (g2 _ _ _).2 hr, rfl⟩
  | collect =>
    have : s' = collect s := by rcases hs with hs | hs <;> cases hs; rfl
    subst this
    exact ⟨g1, g2, by simp only [collect]; rw [g3]; simp [auxs_append, auxs]⟩

theorem history_good : ∀ (ops h : List (Op N K)) (s s' : State N K), Good h s → history s ops = some s' → Good (ops.reverse ++ h) s' := by
  intro ops
  induction ops with
  | nil => intro h s s' g hs; injection hs with hs; subst hs; simpa using g
  | cons o l ih =>
    intro h s s' g hs
    simp only [history] at hs
    rcases h1 : step s o with s1 | s1 | _ <;> rw [h1] at hs
    · have := ih (o :: h) s1 s' (step_good g (Or.inl h1)) hs
      simpa using this
    · have := ih (o :: h) s1 s' (step_good g (Or.inr h1)) hs
      simpa using this
    · cases hs

theorem history_append (s : State N K) (a b : List (Op N K)) : history s (a ++ b) = (history s a).bind (fun s => history s b) := by
  induction a generalizing s with
  | nil => rfl
  | cons o a ih =>
    simp only [List.cons_append, history]
    rcases step s o with s1 | s1 | _
    · exact ih s1
    · exact ih s1
    · rfl

/-- **C32.** For all histories of registrations, removals, measurements and collections from an empty simulation: the next measurement with any sign calls every common part in registration
order, then every registered measure exactly once, in strictly increasing name order, with this sign, and nothing else; a collection calls every registered measure exactly once in name order; the
counter of a measure is the number of measurements since its registration; a second registration of a name throws and changes nothing, a first one succeeds. -/
theorem C32_measures_once (ops : List (Op N K)) (s : State N K) (h : history empty ops = some s) :
    (∀ n u c, (⟨n, u, c⟩ : Entry N) ∈ s.map ↔ Reg ops.reverse n u c) ∧
    (∃ L : List (N × Nat), L.Pairwise (fun a b => a.1 < b.1) ∧ (∀ n u, (n, u) ∈ L ↔ ∃ c, Reg ops.reverse n u c) ∧
      (∀ k, ∃ s', history empty (ops ++ [.measure k]) = some s' ∧ s'.calls = s.calls ++ (auxs ops).map .aux ++ L.map (fun p => .accumulate p.2 k)) ∧
      (∃ s', history empty (ops ++ [.collect]) = some s' ∧ s'.calls = s.calls ++ L.map (fun p => .collect p.2))) ∧
    (∀ n u, (∃ u' c, Reg ops.reverse n u' c) → step s (.insert n u) = .throws s) ∧
    (∀ n u, (¬∃ u' c, Reg ops.reverse n u' c) → ∃ s', step s (.insert n u) = .ok s' ∧ s'.calls = s.calls) := by
  have g := history_good ops [] empty s ⟨List.Pairwise.nil, by intro n u c; simp [empty, Reg], rfl⟩ h
  rw [List.append_nil] at g
  refine ⟨g.2.1, ⟨s.map.map (fun e => (e.name, e.uid)), ?_, ?_, ?_, ?_⟩, ?_, ?_⟩
  · rw [List.pairwise_map]; exact g.1
  · intro n u
    simp only [List.mem_map, Prod.mk.injEq]
    constructor
    · rintro ⟨e, he, rfl, rfl⟩
      exact ⟨e.count, (g.2.1 _ _ _).1 he⟩
    · rintro ⟨c, hr⟩
      exact ⟨_, (g.2.1 _ _ _).2 hr, rfl, rfl⟩
  · intro k
    refine ⟨measure s k, by rw [history_append, h]; rfl, ?_⟩
    simp only [measure, accumulate_eq, List.map_map]
    rw [g.2.2, List.reverse_reverse]; rfl
  · refine ⟨collect s, by rw [history_append, h]; rfl, ?_⟩
    simp only [collect, List.map_map]; rfl
  · intro n u hr
    simp only [step, insert]
    rw [if_pos ((has_iff g n).2 hr)]
  · intro n u hr
    simp only [step, insert]
    rw [if_neg (fun hh => hr ((has_iff g n).1 hh))]
    exact ⟨_, rfl, rfl⟩

/-- a registration of a name that was removed is a new measure, whose counter starts at zero -/
theorem C32_counts_since_registration (ops : List (Op N K)) (n : N) (u : Nat) (hn : ¬∃ u' c, Reg ops.reverse n u' c) (ks : List K) (c : Nat) :
    Reg ((ops ++ (Op.insert n u :: ks.map Op.measure)).reverse) n u c ↔ c = ks.length := by
  rw [List.reverse_append, List.reverse_cons]
  generalize hm : (ks.map Op.measure).reverse = ms
  have hms : ms = (ks.reverse).map (Op.measure (N := N)) := by rw [← hm, List.map_reverse]
  have hl : ks.length = ks.reverse.length := by simp
  rw [hms, hl]
  generalize ks.reverse = ks'
  clear hm hms hl
  induction ks' generalizing c with
  | nil =>
    simp only [List.map_nil, List.nil_append, List.cons_append, Reg]
    constructor
    · rintro (h | ⟨-, -, rfl, -⟩)
      · exact absurd ⟨u, c, h⟩ hn
      · rfl
    · rintro rfl
      exact Or.inr ⟨trivial, trivial, rfl, fun u c h => hn ⟨u, c, h⟩⟩
  | cons k ks' ih =>
    simp only [List.map_cons, List.cons_append, Reg, List.length_cons]
    constructor
    · rintro ⟨c', h, rfl⟩
      rw [(ih c').1 h]
    · rintro rfl
      exact ⟨_, (ih _).2 rfl, rfl⟩

end

/-! ### Examples -/

/-- names are numbers -/
def calls (o : Option (State Nat Int)) : List (Call Int) := match o with | some s => s.calls | none => []

example : calls (history empty [.insert 7 0, .insert 3 1, .measure (-1), .insert 3 2, .remove 0, .insert 9 3, .addAux 5, .measure 1, .collect]) =
    [.accumulate 1 (-1), .accumulate 0 (-1), .aux 5, .accumulate 1 1, .accumulate 3 1, .collect 1, .collect 3] := by decide

-- the second registration of the name 3 throws
example : (match step (⟨[⟨3, 1, 0⟩], [], []⟩ : State Nat Int) (.insert 3 2) with | .throws s => s.map.length | _ => 0) = 1 := by decide

example : (history (empty : State Nat Int) [.insert 7 0, .remove 0, .remove 0]).isNone = true := by decide

end Verif.Measures
