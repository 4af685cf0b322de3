import Mathlib.Data.List.Infix
import Mathlib.Data.List.Nodup

/-!
# Archives of a Monte Carlo calculation

Source: `/repo/c++/triqs/mc_tools/mc_generic.hpp:408-426`, `mc_move_set.hpp:76-81, 123-129, 309-319`, `mc_measure_set.hpp:69-74, 100-105, 192-201`.

An archive maps paths (lists of names) to groups and data. What a move or a measure writes is one value, whatever is below its name. Names have no `/` in
them, since HDF5 reads `a/b` as two names. Opening a group that is not there, and reading data that is not there, throws.
-/

namespace Verif.MC.MoveArchive

/-! ## Model -/

inductive Entry (V : Type) where
  | group
  | data (v : V)
  | int (n : Int)
deriving DecidableEq

abbrev Arch (V : Type) := List String → Option (Entry V)

/-- moves of a set with names: a move has an own `h5_write` and `h5_read` or not (the `if constexpr` of mc_move_set.hpp:77 and 80), a set always has -/
inductive Tree (V : Type) where
  | nil
  | leaf (name : String) (h5 : Bool) (v : V) (rest : Tree V)
  | set (name : String) (sub : Tree V) (rest : Tree V)
deriving DecidableEq

/-- `std::map<std::string, measure>`, mc_measure_set.hpp:113 -/
structure Meas (V : Type) where
  name : String
  h5 : Bool
  v : V
deriving DecidableEq

/-- members of `mc_generic` that the archive has, mc_generic.hpp:430-437, and one that it has not, 439 -/
structure MC (V : Type) where
  moves : Tree V
  measures : List (Meas V)
  cycles : Int
  nmeasures : Int
  sign : V
  configId : Int
deriving DecidableEq

variable {V : Type}

/-- `create_group` and writing of data: what has the name is removed before. -/
def put (q : List String) (e : Entry V) (a : Arch V) : Arch V := fun r => if q <+: r then (if r = q then some e else none) else a r

/-- the loop of `h5_write` of a set in the group `q`, mc_move_set.hpp:313, with 79-81 and 312 for the sets in it -/
def writeMoves : List String → Tree V → Arch V → Arch V
  | _, .nil, a => a
  | q, .leaf n h5 v rest, a => writeMoves q rest (if h5 then put (q ++ [n]) (.data v) a else a)
  | q, .set n sub rest, a => writeMoves q rest (writeMoves (q ++ [n]) sub (put (q ++ [n]) .group a))

/-- the loop of `h5_read` of a set, mc_move_set.hpp:318, with 76-78 and 317 for the sets in it; `none`: an exception -/
def readMoves : List String → Tree V → Arch V → Option (Tree V)
  | _, .nil, _ => some .nil
  | q, .leaf n true v rest, a => match a (q ++ [n]) with
    | some (.data w) => (readMoves q rest a).map (.leaf n true w)
    | _ => none
  | q, .leaf n false v rest, a => (readMoves q rest a).map (.leaf n false v)
  | q, .set n sub rest, a => match a (q ++ [n]) with
    | some .group => match readMoves (q ++ [n]) sub a with
      | some s => (readMoves q rest a).map (.set n s)
      | none => none
    | _ => none

/-- the loop of `h5_write` of the measures, mc_measure_set.hpp:195 -/
def writeMeas (q : List String) : List (Meas V) → Arch V → Arch V
  | [], a => a
  | m :: ms, a => writeMeas q ms (if m.h5 then put (q ++ [m.name]) (.data m.v) a else a)

/-- the loop of `h5_read` of the measures, mc_measure_set.hpp:200 -/
def readMeas (q : List String) : List (Meas V) → Arch V → Option (List (Meas V))
  | [], _ => some []
  | m :: ms, a =>
    if m.h5 then match a (q ++ [m.name]) with
      | some (.data w) => (readMeas q ms a).map ({ m with v := w } :: ·)
      | _ => none
    else (readMeas q ms a).map (m :: ·)

/-- `h5_write` of `mc_generic`, mc_generic.hpp:409-416 -/
def write (q : List String) (m : MC V) (a : Arch V) : Arch V :=
  let a := put q .group a
  let a := writeMoves (q ++ ["moves"]) m.moves (put (q ++ ["moves"]) .group a)
  let a := writeMeas (q ++ ["measures"]) m.measures (put (q ++ ["measures"]) .group a)
  let a := put (q ++ ["number_cycle_done"]) (.int m.cycles) a
  let a := put (q ++ ["number_measure_done"]) (.int m.nmeasures) a
  put (q ++ ["sign"]) (.data m.sign) a

def isGroup : Option (Entry V) → Bool
  | some .group => true
  | _ => false

/-- `h5_read` of `mc_generic`, mc_generic.hpp:419-426, into the calculation `m` -/
def read (q : List String) (m : MC V) (a : Arch V) : Option (MC V) :=
  if isGroup (a q) && isGroup (a (q ++ ["moves"])) && isGroup (a (q ++ ["measures"])) then
    match readMoves (q ++ ["moves"]) m.moves a, readMeas (q ++ ["measures"]) m.measures a, a (q ++ ["number_cycle_done"]),
        a (q ++ ["number_measure_done"]), a (q ++ ["sign"]) with
    | some mv, some ms, some (.int c), some (.int n), some (.data s) =>
      some { m with moves := mv, measures := ms, cycles := c, nmeasures := n, sign := s }
    | _, _, _, _, _ => none
  else none

/-! ## Specification -/

/-- the same moves with the same names -/
def SameMoves : Tree V → Tree V → Prop
  | .nil, .nil => True
  | .leaf n h _ r, .leaf n' h' _ r' => n = n' ∧ h = h' ∧ SameMoves r r'
  | .set n s r, .set n' s' r' => n = n' ∧ SameMoves s s' ∧ SameMoves r r'
  | _, _ => False

/-- `t'` with the states of the moves of `t` that can be archived -/
def takeFrom : Tree V → Tree V → Tree V
  | .leaf n h v r, .leaf _ _ v' r' => .leaf n h (if h then v else v') (takeFrom r r')
  | .set n s r, .set _ s' r' => .set n (takeFrom s s') (takeFrom r r')
  | _, t' => t'

/-- the moves of a set that write something -/
def written : Tree V → List String
  | .nil => []
  | .leaf n h _ r => if h then n :: written r else written r
  | .set n _ r => n :: written r

/-- no two moves of the same set that write something have the same name, in all sets -/
def Distinct : Tree V → Prop
  | .nil => True
  | .leaf n h _ r => (h = true → n ∉ written r) ∧ Distinct r
  | .set n s r => n ∉ written r ∧ Distinct s ∧ Distinct r

def SameMeas (l l' : List (Meas V)) : Prop := l.map (fun m => (m.name, m.h5)) = l'.map fun m => (m.name, m.h5)

def measFrom (l l' : List (Meas V)) : List (Meas V) := List.zipWith (fun m m' => { m' with v := if m.h5 then m.v else m'.v }) l l'

/-! ## Proofs -/

theorem put_self (q : List String) (e : Entry V) (a : Arch V) : put q e a q = some e := by simp [put]

theorem put_out (q r : List String) (e : Entry V) (a : Arch V) (h : ¬ q <+: r) : put q e a r = a r := by simp [put, h]

theorem snoc_prefix_inj {q r : List String} {x y : String} (hx : q ++ [x] <+: r) (hy : q ++ [y] <+: r) : x = y := by
  obtain ⟨t, ht⟩ := hx
  obtain ⟨u, hu⟩ := hy
  rw [← hu, List.append_assoc, List.append_assoc, List.append_cancel_left_eq] at ht
  simpa using (List.cons.inj ht).1

theorem not_snoc_prefix (q : List String) (x : String) : ¬ q ++ [x] <+: q := by
  intro h; have := h.length_le; rw [List.length_append, List.length_singleton] at this; omega

theorem writeMoves_out (t : Tree V) : ∀ (q r : List String) (a : Arch V), (∀ n ∈ written t, ¬ q ++ [n] <+: r) → writeMoves q t a r = a r := by
  induction t with
  | nil => intro q r a _; rfl
  | leaf n h v rest ih =>
    intro q r a hr
    rw [writeMoves]
    cases h with
    | false => rw [ih q r _ fun k hk => hr k (by simpa [written] using hk)]; simp
    | true =>
      rw [ih q r _ fun k hk => hr k (by simp [written, hk]), if_pos rfl]
      exact put_out _ _ _ _ (hr n (by simp [written]))
  | set n sub rest ihs ih =>
    intro q r a hr
    have hn := hr n (by simp [written])
    rw [writeMoves, ih q r _ fun k hk => hr k (by simp [written, hk]),
      ihs (q ++ [n]) r _ fun k _ hk => hn ((List.prefix_append _ _).trans hk)]
    exact put_out _ _ _ _ hn

theorem readMoves_congr (t : Tree V) : ∀ (q : List String) (a b : Arch V), (∀ n ∈ written t, ∀ r, q ++ [n] <+: r → a r = b r) →
    readMoves q t a = readMoves q t b := by
  induction t with
  | nil => intro q a b _; rfl
  | leaf n h v rest ih =>
    intro q a b hab
    cases h with
    | false =>
      rw [readMoves, readMoves, ih q a b fun k hk => hab k (by simpa [written] using hk)]
    | true =>
      rw [readMoves, readMoves, ih q a b fun k hk => hab k (by simp [written, hk]), hab n (by simp [written]) _ (List.prefix_refl _)]
  | set n sub rest ihs ih =>
    intro q a b hab
    rw [readMoves, readMoves, ih q a b fun k hk => hab k (by simp [written, hk]), hab n (by simp [written]) _ (List.prefix_refl _),
      ihs (q ++ [n]) a b fun k _ r hr => hab n (by simp [written]) r ((List.prefix_append _ _).trans hr)]

theorem moves_back (t : Tree V) : ∀ (t' : Tree V) (q : List String) (a : Arch V), SameMoves t t' → Distinct t →
    readMoves q t' (writeMoves q t a) = some (takeFrom t t') := by
  induction t with
  | nil => intro t' q a hs _; cases t' <;> simp [SameMoves] at hs; rfl
  | leaf n h v rest ih =>
    intro t' q a hs hd
    cases t' with
    | nil => simp [SameMoves] at hs
    | set _ _ _ => simp [SameMoves] at hs
    | leaf n' h' v' r' =>
      obtain ⟨rfl, rfl, hs⟩ := hs
      cases h with
      | false => rw [writeMoves, readMoves, ih r' q _ hs hd.2]; simp [takeFrom]
      | true =>
        rw [writeMoves, readMoves, if_pos rfl, writeMoves_out rest q _ _ fun k hk hp =>
          hd.1 rfl ((snoc_prefix_inj (y := n) hp (List.prefix_refl _)) ▸ hk), put_self]
        simp only [ih r' q _ hs hd.2]
        simp [takeFrom]
  | set n sub rest ihs ih =>
    intro t' q a hs hd
    cases t' with
    | nil => simp [SameMoves] at hs
    | leaf _ _ _ _ => simp [SameMoves] at hs
    | set n' s' r' =>
      obtain ⟨rfl, hss, hs⟩ := hs
      have out : ∀ (b : Arch V) r, q ++ [n] <+: r → writeMoves q rest b r = b r := fun b r hr =>
        writeMoves_out rest q r b fun k hk hp => hd.1 (snoc_prefix_inj hp hr ▸ hk)
      have e1 : readMoves (q ++ [n]) s' (writeMoves q rest (writeMoves (q ++ [n]) sub (put (q ++ [n]) .group a))) = some (takeFrom sub s') := by
        rw [readMoves_congr s' (q ++ [n]) _ (writeMoves (q ++ [n]) sub (put (q ++ [n]) .group a)) fun k _ r hr =>
          out _ r ((List.prefix_append _ _).trans hr)]
        exact ihs s' _ _ hss hd.2.1
      rw [writeMoves, readMoves, out _ _ (List.prefix_refl _), writeMoves_out sub _ _ _ fun k _ => not_snoc_prefix _ k, put_self]
      simp only [e1, ih r' q _ hs hd.2.2]
      simp [takeFrom]

theorem writeMeas_out (q r : List String) (l : List (Meas V)) : ∀ a : Arch V, (∀ m ∈ l, m.h5 = true → ¬ q ++ [m.name] <+: r) →
    writeMeas q l a r = a r := by
  induction l with
  | nil => intro a _; rfl
  | cons m ms ih =>
    intro a hr
    rw [writeMeas, ih _ fun k hk => hr k (List.mem_cons_of_mem _ hk)]
    by_cases h : m.h5 = true
    · rw [if_pos h]; exact put_out _ _ _ _ (hr m (by simp) h)
    · rw [if_neg h]

theorem readMeas_congr (q : List String) (l : List (Meas V)) (a b : Arch V) (hab : ∀ m ∈ l, a (q ++ [m.name]) = b (q ++ [m.name])) :
    readMeas q l a = readMeas q l b := by
  induction l with
  | nil => rfl
  | cons m ms ih => rw [readMeas, readMeas, ih fun k hk => hab k (List.mem_cons_of_mem _ hk), hab m (by simp)]

theorem meas_back (q : List String) (l : List (Meas V)) : ∀ (l' : List (Meas V)) (a : Arch V), SameMeas l l' → (l.map Meas.name).Nodup →
    readMeas q l' (writeMeas q l a) = some (measFrom l l') := by
  induction l with
  | nil => intro l' a hs _; cases l' <;> simp [SameMeas] at hs; rfl
  | cons m ms ih =>
    intro l' a hs hd
    cases l' with
    | nil => simp [SameMeas] at hs
    | cons m' ms' =>
      simp only [SameMeas, List.map_cons, List.cons.injEq, Prod.mk.injEq] at hs
      obtain ⟨⟨hn, hh⟩, hs⟩ := hs
      rw [List.map_cons, List.nodup_cons] at hd
      have hi := fun b => ih ms' b hs hd.2
      rw [readMeas, writeMeas, ← hh, ← hn]
      by_cases h : m.h5 = true
      · rw [if_pos h, if_pos h, writeMeas_out q _ ms _ fun k hk _ hp => hd.1 (List.mem_map.2 ⟨k, hk, snoc_prefix_inj (y := m.name) hp (List.prefix_refl _)⟩),
          put_self]
        simp only [hi]
        simp [measFrom, ← hh, h, hn]
      · rw [if_neg h, if_neg h, hi]
        simp [measFrom, h]

/-- Everything outside of the group of the calculation stays as it is. -/
theorem C167_outside (q : List String) (m : MC V) (a : Arch V) (r : List String) (h : ¬ q <+: r) : write q m a r = a r := by
  have hq : ∀ x, ¬ q ++ [x] <+: r := fun x hx => h ((List.prefix_append _ _).trans hx)
  have hq2 : ∀ x y, ¬ q ++ [x] ++ [y] <+: r := fun x y hx => hq x ((List.prefix_append _ _).trans hx)
  simp only [write]
  rw [put_out _ _ _ _ (hq _), put_out _ _ _ _ (hq _), put_out _ _ _ _ (hq _), writeMeas_out _ _ _ _ fun k _ _ => hq2 _ _, put_out _ _ _ _ (hq _),
    writeMoves_out _ _ _ _ fun k _ => hq2 _ _, put_out _ _ _ _ (hq _), put_out _ _ _ _ h]

/-- A calculation that was set up with the same moves and measures and reads the archive has the numbers of cycles and measurements, the sign, and the
states of all moves and measures that can be archived, as they were written, whatever the archive had before; everything else is its own. -/
theorem C167_back (q : List String) (m m' : MC V) (a : Arch V) (hm : SameMoves m.moves m'.moves) (hd : Distinct m.moves)
    (hs : SameMeas m.measures m'.measures) (hn : (m.measures.map Meas.name).Nodup) :
    read q m' (write q m a) = some ⟨takeFrom m.moves m'.moves, measFrom m.measures m'.measures, m.cycles, m.nmeasures, m.sign, m'.configId⟩ := by
  have ne : ∀ {x y : String} {r : List String}, x ≠ y → q ++ [y] <+: r → ¬ q ++ [x] <+: r := fun hxy hy hx => hxy (snoc_prefix_inj hx hy)
  have ne2 : ∀ {x y z : String} {r : List String}, x ≠ y → q ++ [y] <+: r → ¬ q ++ [x] ++ [z] <+: r :=
    fun hxy hy hx => ne hxy hy ((List.prefix_append _ _).trans hx)
  -- the archive below `moves`
  have eMoves : ∀ r, q ++ ["moves"] <+: r →
      write q m a r = writeMoves (q ++ ["moves"]) m.moves (put (q ++ ["moves"]) .group (put q .group a)) r := by
    intro r hr
    simp only [write]
    rw [put_out _ _ _ _ (ne (by decide) hr), put_out _ _ _ _ (ne (by decide) hr), put_out _ _ _ _ (ne (by decide) hr),
      writeMeas_out _ _ _ _ fun k _ _ => ne2 (by decide) hr, put_out _ _ _ _ (ne (by decide) hr)]
  have eMeas : ∀ r, q ++ ["measures"] <+: r → write q m a r = writeMeas (q ++ ["measures"]) m.measures (put (q ++ ["measures"]) .group
      (writeMoves (q ++ ["moves"]) m.moves (put (q ++ ["moves"]) .group (put q .group a)))) r := by
    intro r hr
    simp only [write]
    rw [put_out _ _ _ _ (ne (by decide) hr), put_out _ _ _ _ (ne (by decide) hr), put_out _ _ _ _ (ne (by decide) hr)]
  have h0 : write q m a q = some .group := by
    simp only [write]
    rw [put_out _ _ _ _ (not_snoc_prefix _ _), put_out _ _ _ _ (not_snoc_prefix _ _), put_out _ _ _ _ (not_snoc_prefix _ _),
      writeMeas_out _ _ _ _ fun k _ _ hp => not_snoc_prefix q _ ((List.prefix_append _ _).trans hp), put_out _ _ _ _ (not_snoc_prefix _ _),
      writeMoves_out _ _ _ _ fun k _ hp => not_snoc_prefix q _ ((List.prefix_append _ _).trans hp), put_out _ _ _ _ (not_snoc_prefix _ _), put_self]
  have h1 : write q m a (q ++ ["moves"]) = some .group := by
    rw [eMoves _ (List.prefix_refl _), writeMoves_out _ _ _ _ fun k _ => not_snoc_prefix _ k, put_self]
  have h2 : write q m a (q ++ ["measures"]) = some .group := by
    rw [eMeas _ (List.prefix_refl _), writeMeas_out _ _ _ _ fun k _ _ => not_snoc_prefix _ k.name, put_self]
  have h3 : readMoves (q ++ ["moves"]) m'.moves (write q m a) = some (takeFrom m.moves m'.moves) := by
    rw [readMoves_congr _ _ _ _ fun k _ r hr => eMoves r ((List.prefix_append _ _).trans hr)]
    exact moves_back _ _ _ _ hm hd
  have h4 : readMeas (q ++ ["measures"]) m'.measures (write q m a) = some (measFrom m.measures m'.measures) := by
    rw [readMeas_congr _ _ _ _ fun k _ => eMeas _ (List.prefix_append _ _)]
    exact meas_back _ _ _ _ hs hn
  have h5 : write q m a (q ++ ["number_cycle_done"]) = some (.int m.cycles) := by
    simp only [write]
    rw [put_out _ _ _ _ (ne (by decide) (List.prefix_refl _)), put_out _ _ _ _ (ne (by decide) (List.prefix_refl _)), put_self]
  have h6 : write q m a (q ++ ["number_measure_done"]) = some (.int m.nmeasures) := by
    simp only [write]
    rw [put_out _ _ _ _ (ne (by decide) (List.prefix_refl _)), put_self]
  have h7 : write q m a (q ++ ["sign"]) = some (.data m.sign) := by
    simp only [write]
    rw [put_self]
  simp only [read, h0, h1, h2, h3, h4, h5, h6, h7, isGroup, Bool.and_self, if_true]

/-- A calculation with a move or a set in its outer set that the archive has no entry for does not read the archive. -/
theorem C167_missing (q : List String) (m' : MC V) (a : Arch V) (n : String) (hn : n ∈ written m'.moves) (ha : a (q ++ ["moves"] ++ [n]) = none) :
    read q m' a = none := by
  have key : ∀ (t : Tree V), n ∈ written t → readMoves (q ++ ["moves"]) t a = none := by
    intro t
    induction t with
    | nil => intro h; simp [written] at h
    | leaf k h v rest ih =>
      intro hk
      cases h with
      | false => rw [readMoves, ih (by simpa [written] using hk)]; rfl
      | true =>
        rw [readMoves]
        by_cases hkn : k = n
        · subst hkn; rw [ha]
        · have := ih (by simpa [written, Ne.symm hkn] using hk)
          rw [this]
          split <;> rfl
    | set k sub rest _ ih =>
      intro hk
      rw [readMoves]
      by_cases hkn : k = n
      · subst hkn; rw [ha]
      · have := ih (by simpa [written, Ne.symm hkn] using hk)
        rw [this]
        split
        · split <;> rfl
        · rfl
  rw [read, key _ hn]
  split <;> rfl

/-! ### Examples -/

/-- a move, one that cannot be archived, and a set with a move of the name of the first -/
def t₀ (a b c : Nat) : Tree Nat := .leaf "flip" true a (.leaf "shift" false b (.set "pairs" (.leaf "flip" true c .nil) .nil))
def m₀ : MC Nat := ⟨t₀ 1 2 3, [⟨"g", true, 7⟩, ⟨"n", false, 8⟩], 100, 50, 1, 1000⟩
def m₁ : MC Nat := ⟨t₀ 0 0 0, [⟨"g", true, 0⟩, ⟨"n", false, 0⟩], 0, 0, 0, 0⟩

example : read ["mc"] m₁ (write ["mc"] m₀ fun _ => none) = some ⟨t₀ 1 0 3, [⟨"g", true, 7⟩, ⟨"n", false, 0⟩], 100, 50, 1, 0⟩ := by decide +kernel
example : Distinct (t₀ 1 2 3) := by simp [t₀, Distinct, written]
example : SameMoves m₀.moves m₁.moves ∧ SameMeas m₀.measures m₁.measures := by simp [m₀, m₁, t₀, SameMoves, SameMeas]

/-- Nothing prevents that two moves have the same name; then both read the state of the last one. -/
theorem C167_same_name : read ["mc"] { m₁ with moves := .leaf "flip" true 0 (.leaf "flip" true 0 .nil) }
    (write ["mc"] { m₀ with moves := .leaf "flip" true 1 (.leaf "flip" true 2 .nil) } fun _ => none) =
      some { m₀ with moves := .leaf "flip" true 2 (.leaf "flip" true 2 .nil), measures := [⟨"g", true, 7⟩, ⟨"n", false, 0⟩], configId := 0 } := by
  decide +kernel

/-- A move and a set with the same name: what was written cannot be read. -/
theorem C167_same_name_set : read ["mc"] { m₁ with moves := .leaf "flip" true 0 (.set "flip" .nil .nil) }
    (write ["mc"] { m₀ with moves := .leaf "flip" true 1 (.set "flip" .nil .nil) } fun _ => none) = none := by decide +kernel

end Verif.MC.MoveArchive
