import Verif.DetManip.Neg

/-!
# Archives and moves of determinants, and operations in one call (C164, C165)

Source: `/repo/c++/triqs/det_manip/det_manip.hpp`: `h5_write` and `h5_read` (87-118), the move constructor (324-326) and the short cuts
(1245-1304). The model of the object is `Verif.DetManip.Model`; reading back an archive is one of the steps of a history (`Reach.archive`), so that
C19 to C24 hold for objects read back as well. An archive is the record of the values written; the text or binary form of a file is not modelled.
-/

namespace Verif.DetManip

set_option linter.unusedSectionVars false

section
variable {X Y K : Type} [Inhabited X] [Inhabited Y] [Field K] [DecidableEq K]

/-! ## Model -/

/-- the move constructor, det_manip.hpp:324-326: the default member initialisers (det_manip.hpp:60-84), then `swap_but_f`. -/
def moveCtor (b : State X Y K) : State X Y K := (swapObj fresh b).1

/-- a try followed by `complete_operation`, the value being that of the try: the pattern of det_manip.hpp:1245-1304. -/
def now (e : Env X Y K) (s : State X Y K) (o : Op X Y) : Res (State X Y K) K :=
  match tryOp e s o with
  | .ok r s1 =>
    match completeOperation e s1 with
    | .ok _ s2 => .ok r s2
    | .throws s2 => .throws s2
    | .undef => .undef
  | .throws s1 => .throws s1
  | .undef => .undef

/-- `insert`, det_manip.hpp:1245-1249. -/
def insertNow (e : Env X Y K) (s : State X Y K) (i j : Int) (x : X) (y : Y) : Res (State X Y K) K := now e s (.insert i j x y)
/-- `insert_at_end`, det_manip.hpp:1252. -/
def insertAtEnd (e : Env X Y K) (s : State X Y K) (x : X) (y : Y) : Res (State X Y K) K := insertNow e s s.N s.N x y
/-- `insert2`, det_manip.hpp:1255-1259 and 675-677. -/
def insert2 (e : Env X Y K) (s : State X Y K) (i0 i1 j0 j1 : Int) (x0 x1 : X) (y0 y1 : Y) : Res (State X Y K) K :=
  now e s (.insertK [i0, i1] [j0, j1] [x0, x1] [y0, y1])
/-- `insert2_at_end`, det_manip.hpp:1262-1264. -/
def insert2AtEnd (e : Env X Y K) (s : State X Y K) (x0 x1 : X) (y0 y1 : Y) : Res (State X Y K) K :=
  insert2 e s s.N (s.N + 1) s.N (s.N + 1) x0 x1 y0 y1
/-- `remove`, det_manip.hpp:1267-1271. -/
def removeNow (e : Env X Y K) (s : State X Y K) (i j : Int) : Res (State X Y K) K := now e s (.remove i j)
/-- `remove_at_end`, det_manip.hpp:1274. -/
def removeAtEnd (e : Env X Y K) (s : State X Y K) : Res (State X Y K) K := removeNow e s (s.N - 1) (s.N - 1)
/-- `remove2`, det_manip.hpp:1277-1281 and 850. -/
def remove2 (e : Env X Y K) (s : State X Y K) (i0 i1 j0 j1 : Int) : Res (State X Y K) K := now e s (.removeK [i0, i1] [j0, j1])
/-- `remove2_at_end`, det_manip.hpp:1284. -/
def remove2AtEnd (e : Env X Y K) (s : State X Y K) : Res (State X Y K) K := remove2 e s (s.N - 1) (s.N - 2) (s.N - 1) (s.N - 2)
/-- `change_col`, det_manip.hpp:1287-1291. -/
def changeColNow (e : Env X Y K) (s : State X Y K) (j : Int) (y : Y) : Res (State X Y K) K := now e s (.changeCol j y)
/-- `change_row`, det_manip.hpp:1294-1298. -/
def changeRowNow (e : Env X Y K) (s : State X Y K) (i : Int) (x : X) : Res (State X Y K) K := now e s (.changeRow i x)
/-- `change_one_row_and_one_col`, det_manip.hpp:1300-1304. -/
def changeRowColNow (e : Env X Y K) (s : State X Y K) (i j : Int) (x : X) (y : Y) : Res (State X Y K) K := now e s (.changeColRow i j x y)

/-! ## Specification -/

/-- determinant of `f(x_i, y_j)` -/
def detOf (e : Env X Y K) (x : List X) (y : List Y) : K := (userMatrix e.f x y).det

/-- outcome of a call on the object `s` that takes the lists `x`, `y` to `x'`, `y'`: it ends normally with the ratio of the determinants and leaves an
object with a history and the new lists; or the periodic check of the inverse throws, being due; or the new matrix is singular (division by zero). -/
def Took (e : Env X Y K) (s : State X Y K) (r : Res (State X Y K) K) (x : List X) (y : List Y) (x' : List X) (y' : List Y) : Prop :=
  match r with
  | .ok v t => v = detOf e x' y' / detOf e x y ∧ Reach e t x' y' ∧ getX t = x' ∧ getY t = y'
  | .throws _ => s.nOptsMax ≤ s.nOpts
  | .undef => detOf e x' y' = 0

/-! ## Proofs -/

/-! ### C164 -/

/-- **C164** What is shown by an object read back does not depend on the object that was used for reading: size, arguments, inverse matrix and
determinant are those of the object written, and so are the settings that are stored. -/
theorem C164_shown {e : Env X Y K} {s : State X Y K} {xl : List X} {yl : List Y} (h : Reach e s xl yl) (g : State X Y K) :
    let t := h5Read (h5Write s) g
    t.N = xl.length ∧ getX t = xl ∧ getY t = yl ∧ inverseOut t xl.length * userMatrix e.f xl yl = 1 ∧
      (∀ d t1, determinant e t = .ok d t1 → d = detOf e xl yl) ∧ determinant e t ≠ .undef ∧ ((∃ d s1, determinant e s = .ok d s1) → ∃ t1, determinant e t = .ok (detOf e xl yl) t1) ∧
      t.nOptsMax = s.nOptsMax ∧ t.singularThreshold = s.singularThreshold ∧ t.lastTry = .noTry := by
  have key : ∀ d, (∃ t1, determinant e (h5Read (h5Write s) g) = .ok d t1) ↔ ∃ s1, determinant e s = .ok d s1 := by
    intro d
    simp only [determinant, h5Read, h5Write, regenerate, regenerateWithCheck]
    by_cases c1 : e.singular s.singularThreshold s.det = true
    · by_cases c2 : s.N = 0
      · simp [c1, c2]
      · by_cases c3 : e.singular s.singularThreshold (detN s.N fun i j => e.f (nth s.xs i) (nth s.ys j)) = true
        · simp [c1, c2, c3]
        · by_cases c4 : (detN s.N fun i j => e.f (nth s.xs i) (nth s.ys j)) = 0
          · simp [c1, c2, if_neg c3, if_pos c4]
          · simp [c1, c2, if_neg c3, if_neg c4]
    · simp [c1]
  have keyu : determinant e (h5Read (h5Write s) g) = .undef ↔ determinant e s = .undef := by
    simp only [determinant, h5Read, h5Write, regenerate, regenerateWithCheck]
    by_cases c1 : e.singular s.singularThreshold s.det = true
    · by_cases c2 : s.N = 0
      · simp [c1, c2]
      · by_cases c3 : e.singular s.singularThreshold (detN s.N fun i j => e.f (nth s.xs i) (nth s.ys j)) = true
        · simp [c1, c2, c3]
        · by_cases c4 : (detN s.N fun i j => e.f (nth s.xs i) (nth s.ys j)) = 0
          · simp [c1, c2, if_neg c3, if_pos c4]
          · simp [c1, c2, if_neg c3, if_neg c4]
    · simp [c1]
  obtain ⟨hx, hy⟩ := user_order h
  refine ⟨(determinant_defined h).2.2.1, hx, hy, (inverse_exact h).1, ?_, ?_, ?_, rfl, rfl, rfl⟩
  · intro d t1 hd
    obtain ⟨s1, hs⟩ := (key d).mp ⟨t1, hd⟩
    exact determinant_exact h hs
  · intro hu
    exact (determinant_defined h).2.2.2.1 (keyu.mp hu)
  · rintro ⟨d, s1, hs⟩
    have : d = detOf e xl yl := determinant_exact h hs
    exact (key _).mpr ⟨s1, this ▸ hs⟩

/-- **C164** An archive read into an object that has reserved at least as much room is as good as the original: every valid operation can be tried,
the value is the ratio of the determinants, the completion is defined when the new matrix is invertible and it leaves an object with the new lists. -/
theorem C164_continue {e : Env X Y K} {s g : State X Y K} {xl xg : List X} {yl yg : List Y} (h : Reach e s xl yl) (hg : Reach e g xg yg) (hn : s.Nmax ≤ g.Nmax)
    (o : Op X Y) (hv : o.Valid xl.length) :
    Reach e (h5Read (h5Write s) g) xl yl ∧
    ∃ r t1, tryOp e (h5Read (h5Write s) g) o = .ok r t1 ∧ ∀ X' Y', o.Spec xl yl X' Y' →
      r = detOf e X' Y' / detOf e xl yl ∧ (detOf e X' Y' ≠ 0 → completeOperation e t1 ≠ .undef) ∧
      ∀ u t2, completeOperation e t1 = .ok u t2 → getX t2 = X' ∧ getY t2 = Y' ∧ inverseOut t2 X'.length * userMatrix e.f X' Y' = 1 := by
  have ht := Reach.archive h hg hn
  obtain ⟨r, t1, h1⟩ := try_progress ht o hv
  refine ⟨ht, r, t1, h1, ?_⟩
  intro X' Y' hs
  refine ⟨try_ratio ht h1 hs, fun hne => (complete_defined ht h1 hs hne).1, ?_⟩
  intro u t2 h2
  have h3 := Reach.accept ht h1 hs h2
  exact ⟨(user_order h3).1, (user_order h3).2, (inverse_exact h3).1⟩

/-- **C164** An archive written while a try is pending is the archive of the object in which the try was rejected: read back, it shows the lists before
the try, and the operation is forgotten. -/
theorem C164_pending {e : Env X Y K} {s g : State X Y K} {xl xg : List X} {yl yg : List Y} (h : Reach e s xl yl) (hg : Reach e g xg yg) {o : Op X Y} {r : K}
    {s1 : State X Y K} (ht : tryOp e s o = .ok r s1) (hn : s1.Nmax ≤ g.Nmax) :
    let t := h5Read (h5Write s1) g
    Reach e t xl yl ∧ getX t = xl ∧ getY t = yl ∧ inverseOut t xl.length = inverseOut s xl.length ∧ completeOperation e t = .ok () t := by
  have h1 := Reach.archive (Reach.reject h ht) hg hn
  have h2 : h5Read (h5Write (rejectLastTry s1)) g = h5Read (h5Write s1) g := rfl
  rw [h2] at h1
  exact ⟨h1, (user_order h1).1, (user_order h1).2, (history_independent h1 h).1, rfl⟩

/-- **C164** The move constructor: when no operation on several rows was ever tried (`kmax` is 1) the new object takes over everything that C19 to C24
speak about. -/
theorem C164_move {e : Env X Y K} {b : State X Y K} {xl : List X} {yl : List Y} (h : Reach e b xl yl) (hk : b.kmax = 1) :
    Reach e (moveCtor b) xl yl ∧ getX (moveCtor b) = xl ∧ getY (moveCtor b) = yl ∧ inverseOut (moveCtor b) xl.length = inverseOut b xl.length ∧
      (moveCtor b).sign = b.sign ∧ (moveCtor b).det = b.det := by
  have h0 : Reach e (fresh : State X Y K) [] [] := by
    have := Reach.init (e := e) 0
    exact this
  have h1 := Reach.swap h0 h hk.symm
  exact ⟨h1, (user_order h1).1, (user_order h1).2, rfl, rfl, rfl⟩

/-! ### C165 -/

/-! #### the counters of the periodic check -/

/-- the counters of the two states agree -/
def SameCount (s t : State X Y K) : Prop := t.nOpts = s.nOpts ∧ t.nOptsMax = s.nOptsMax

theorem reserve_count (s : State X Y K) (n : Int) (k : Nat) : SameCount s (reserve s n k) := by
  obtain ⟨a, b, c, d, g, h⟩ := reserve_eq s n k
  rw [h]; exact ⟨rfl, rfl⟩

theorem tryOp_count {e : Env X Y K} {s s1 : State X Y K} {o : Op X Y} {r : K} (h : tryOp e s o = .ok r s1) : SameCount s s1 := by
  cases o with
  | insert i j x y =>
    simp only [tryOp, tryInsert, tryInsertCore] at h
    split_ifs at h <;> (injection h with _ h; subst h; exact reserve_count s _ _)
  | insertK i j x y =>
    simp only [tryOp] at h
    unfold tryInsertK at h
    split_ifs at h
    obtain ⟨a, b, c, d, g, hres⟩ := reserve_eq { s with k := i.length } (s.N + i.length : Int) i.length
    dsimp only at h
    rw [hres] at h
    dsimp only at h
    split_ifs at h <;> (injection h with _ h; subst h; exact ⟨rfl, rfl⟩)
  | remove i j =>
    simp only [tryOp, tryRemove] at h
    split_ifs at h; injection h with _ h; subst h; exact ⟨rfl, rfl⟩
  | removeK i j =>
    simp only [tryOp, tryRemoveK] at h
    split_ifs at h <;> (injection h with _ h; subst h; exact reserve_count { s with k := _ } _ _)
  | changeCol j y =>
    simp only [tryOp, tryChangeCol] at h
    split_ifs at h; injection h with _ h; subst h; exact ⟨rfl, rfl⟩
  | changeRow i x =>
    simp only [tryOp, tryChangeRow] at h
    split_ifs at h; injection h with _ h; subst h; exact ⟨rfl, rfl⟩
  | changeColRow i j x y =>
    simp only [tryOp, tryChangeColRow] at h
    split_ifs at h; injection h with _ h; subst h; exact ⟨rfl, rfl⟩
  | refill x y =>
    simp only [tryOp, tryRefill] at h
    split_ifs at h <;> (injection h with _ h; subst h; exact ⟨rfl, rfl⟩)

theorem moveRow_count (s : State X Y K) (a t : Nat) : SameCount s (moveRow s a t) := by
  unfold moveRow; split_ifs <;> exact ⟨rfl, rfl⟩

theorem moveCol_count (s : State X Y K) (a t : Nat) : SameCount s (moveCol s a t) := by
  unfold moveCol; split_ifs <;> exact ⟨rfl, rfl⟩

theorem SameCount.trans {s t u : State X Y K} (h : SameCount s t) (h' : SameCount t u) : SameCount s u := ⟨h'.1.trans h.1, h'.2.trans h.2⟩

theorem moveAll_count : ∀ (as bs : List Nat) (t : Nat) (s : State X Y K), SameCount s (moveAll as bs t s)
  | [], _, _, _ => by simp only [moveAll]; exact ⟨rfl, rfl⟩
  | _ :: _, [], _, _ => by simp only [moveAll]; exact ⟨rfl, rfl⟩
  | a :: as, b :: bs, t, s => by
    simp only [moveAll]
    exact ((moveRow_count s a t).trans (moveCol_count _ b t)).trans (moveAll_count as bs (t - 1) _)

theorem completeCase_count {s s2 : State X Y K} (h : completeCase s = some s2) : SameCount s s2 := by
  unfold completeCase at h
  split at h
  · simp only [completeInsert] at h
    split_ifs at h <;> (injection h with h; subst h; exact ⟨rfl, rfl⟩)
  · simp only [completeRemove] at h
    split_ifs at h
    · injection h with h; subst h; exact ⟨rfl, rfl⟩
    · injection h with h; subst h
      exact (moveRow_count s s.w1.ireal (s.N - 1)).trans (moveCol_count _ (moveRow s s.w1.ireal (s.N - 1)).w1.jreal ((moveRow s s.w1.ireal (s.N - 1)).N - 1))
  · simp only [completeChangeCol] at h
    split_ifs at h; injection h with h; subst h; exact ⟨rfl, rfl⟩
  · simp only [completeChangeRow] at h
    split_ifs at h; injection h with h; subst h; exact ⟨rfl, rfl⟩
  · simp only [completeChangeColRow] at h
    split_ifs at h; injection h with h; subst h; exact ⟨rfl, rfl⟩
  · simp only [completeInsertK] at h
    split_ifs at h <;> split at h <;> first | (injection h with h; subst h; exact ⟨rfl, rfl⟩) | cases h
  · simp only [completeRemoveK] at h
    split_ifs at h
    · injection h with h; subst h; exact ⟨rfl, rfl⟩
    · injection h with h; subst h
      exact moveAll_count (s.wk.ireal.insertionSort (· ≤ ·)).reverse (s.wk.jreal.insertionSort (· ≤ ·)).reverse (s.N - 1) s
  · simp only [completeRefill] at h
    split_ifs at h
    · injection h with h; subst h; exact ⟨rfl, rfl⟩
    · injection h with h; subst h
      exact reserve_count { s with N := _ } _ _
  · injection h with h; subst h; exact ⟨rfl, rfl⟩

/-- **C165** A valid operation in one call: its value is the ratio of the determinants, the lists are the new ones, the call is undefined only if the
new matrix is singular, and it throws only if the periodic check is due. -/
theorem C165_now {e : Env X Y K} {s : State X Y K} {xl X' : List X} {yl Y' : List Y} (h : Reach e s xl yl) (o : Op X Y) (hv : o.Valid xl.length)
    (hs : o.Spec xl yl X' Y') : Took e s (now e s o) xl yl X' Y' := by
  obtain ⟨r, s1, h1⟩ := try_progress h o hv
  unfold now
  rw [h1]
  simp only
  rcases h2 : completeOperation e s1 with ⟨u, s2⟩ | s2 | _
  · have h3 := Reach.accept h h1 hs h2
    exact ⟨try_ratio h h1 hs, h3, (user_order h3).1, (user_order h3).2⟩
  · change s.nOptsMax ≤ s.nOpts
    by_contra hlt
    by_cases hne : detOf e X' Y' = 0
    · unfold completeOperation at h2
      split_ifs at h2
      rcases h3 : completeCase s1 with _ | s'
      · rw [h3] at h2; cases h2
      · rw [h3] at h2
        simp only at h2
        have c1 := tryOp_count h1
        have c2 := completeCase_count h3
        have c3 := c1.trans c2
        rw [if_neg (by rw [c3.1, c3.2]; omega)] at h2
        cases h2
    · obtain ⟨-, s', h3, h4⟩ := complete_defined h h1 hs hne
      have c3 := (tryOp_count h1).trans (completeCase_count h3)
      obtain ⟨s3, h5⟩ := h4 (by rw [c3.1, c3.2]; omega)
      rw [h2] at h5; cases h5
  · by_contra hne
    exact (complete_defined h h1 hs hne).1 h2

/-- **C165** The calls at given positions: the lists afterwards are those of the list operation. -/
theorem C165_calls {e : Env X Y K} {s : State X Y K} {xl : List X} {yl : List Y} (h : Reach e s xl yl) :
    (∀ (i j : Nat) x y, i ≤ xl.length → j ≤ yl.length → Took e s (insertNow e s i j x y) xl yl (xl.insertIdx i x) (yl.insertIdx j y)) ∧
    (∀ (i j : Nat), i < xl.length → j < yl.length → Took e s (removeNow e s i j) xl yl (xl.eraseIdx i) (yl.eraseIdx j)) ∧
    (∀ (j : Nat) y, j < yl.length → Took e s (changeColNow e s j y) xl yl xl (yl.set j y)) ∧
    (∀ (i : Nat) x, i < xl.length → Took e s (changeRowNow e s i x) xl yl (xl.set i x) yl) ∧
    (∀ (i j : Nat) x y, i < xl.length → j < yl.length → Took e s (changeRowColNow e s i j x y) xl yl (xl.set i x) (yl.set j y)) := by
  obtain ⟨-, hl, -⟩ := determinant_defined h
  refine ⟨?_, ?_, ?_, ?_, ?_⟩
  · intro i j x y hi hj
    exact C165_now h (.insert i j x y) ⟨by omega, by omega, by omega, by omega⟩ ⟨⟨by omega, by omega, rfl⟩, by omega, by omega, rfl⟩
  · intro i j hi hj
    exact C165_now h (.remove i j) ⟨by omega, by omega, by omega, by omega⟩ ⟨⟨by omega, by omega, rfl⟩, by omega, by omega, rfl⟩
  · intro j y hj
    exact C165_now h (.changeCol j y) ⟨by omega, by omega⟩ ⟨rfl, by omega, by omega, rfl⟩
  · intro i x hi
    exact C165_now h (.changeRow i x) ⟨by omega, by omega⟩ ⟨⟨by omega, by omega, rfl⟩, rfl⟩
  · intro i j x y hi hj
    exact C165_now h (.changeColRow i j x y) ⟨by omega, by omega, by omega, by omega⟩ ⟨⟨by omega, by omega, rfl⟩, by omega, by omega, rfl⟩

/-- **C165** `insert2` and `remove2` with two different positions for the rows and for the columns. For the insertion the positions are those in the
new lists, `X'` and `Y'` being lists with the new arguments there and the old lists elsewhere. -/
theorem C165_two {e : Env X Y K} {s : State X Y K} {xl : List X} {yl : List Y} (h : Reach e s xl yl) (i0 i1 j0 j1 : Nat) (hi : i0 ≠ i1) (hj : j0 ≠ j1) :
    (∀ x0 x1 y0 y1 X' Y', X'.length = xl.length + 2 → X'[i0]? = some x0 → X'[i1]? = some x1 → removeAt [i0, i1] X' = xl →
      Y'.length = yl.length + 2 → Y'[j0]? = some y0 → Y'[j1]? = some y1 → removeAt [j0, j1] Y' = yl →
      Took e s (insert2 e s i0 i1 j0 j1 x0 x1 y0 y1) xl yl X' Y') ∧
    (i0 < xl.length → i1 < xl.length → j0 < yl.length → j1 < yl.length →
      Took e s (remove2 e s i0 i1 j0 j1) xl yl (removeAt [i0, i1] xl) (removeAt [j0, j1] yl)) := by
  obtain ⟨-, hl, -⟩ := determinant_defined h
  have two : ∀ {a b : Nat} {n : Int}, (a : Int) < n → (b : Int) < n → ∀ p ∈ [(a : Int), (b : Int)], 0 ≤ p ∧ p < n := by
    intro a b n ha hb p hp
    simp only [List.mem_cons, List.not_mem_nil, or_false] at hp
    rcases hp with rfl | rfl <;> constructor <;> omega
  have ins : ∀ {α : Type} (l l' : List α) (a b : Nat) (u v : α), l'.length = l.length + 2 → l'[a]? = some u → l'[b]? = some v → removeAt [a, b] l' = l →
      Inserted [(a : Int), (b : Int)] [u, v] l l' := by
    intro α l l' a b u v hlen hu hv hr
    have ha : a < l'.length := (List.getElem?_eq_some_iff.mp hu).1
    have hb : b < l'.length := (List.getElem?_eq_some_iff.mp hv).1
    refine ⟨hlen, two (by omega) (by omega), ?_, by simpa using hr⟩
    intro p hp
    simp only [List.length_cons, List.length_nil] at hp
    have : p = 0 ∨ p = 1 := by omega
    rcases this with rfl | rfl
    · simpa using hu
    · simpa using hv
  constructor
  · intro x0 x1 y0 y1 X' Y' a1 a2 a3 a4 b1 b2 b3 b4
    have hi0 : i0 < X'.length := (List.getElem?_eq_some_iff.mp a2).1
    have hi1 : i1 < X'.length := (List.getElem?_eq_some_iff.mp a3).1
    have hj0 : j0 < Y'.length := (List.getElem?_eq_some_iff.mp b2).1
    have hj1 : j1 < Y'.length := (List.getElem?_eq_some_iff.mp b3).1
    exact C165_now h (.insertK [i0, i1] [j0, j1] [x0, x1] [y0, y1])
      ⟨rfl, rfl, rfl, by simpa using hi, by simpa using hj, two (by simp; omega) (by simp; omega), two (by simp; omega) (by simp; omega), le_refl _⟩
      ⟨ins _ _ _ _ _ _ a1 a2 a3 a4, ins _ _ _ _ _ _ b1 b2 b3 b4⟩
  · intro a1 a2 b1 b2
    exact C165_now h (.removeK [i0, i1] [j0, j1])
      ⟨rfl, by simpa using hi, by simpa using hj, two (by omega) (by omega), two (by omega) (by omega), le_refl _⟩
      ⟨⟨two (by omega) (by omega), by simp⟩, two (by omega) (by omega), by simp⟩

/-- size of the object -/
theorem size_eq {e : Env X Y K} {s : State X Y K} {xl : List X} {yl : List Y} (h : Reach e s xl yl) : s.N = xl.length ∧ s.N = yl.length := by
  obtain ⟨-, h1, h2, -⟩ := determinant_defined h
  exact ⟨h2, h2.trans h1⟩

/-- removing a tail -/
theorem removeAt_tail {α : Type} (v : List α) (I : List Nat) (n : Nat) (hn : n ≤ v.length) (hI : ∀ p < v.length, p ∈ I ↔ n ≤ p) : removeAt I v = v.take n := by
  unfold removeAt
  obtain ⟨k, hk⟩ := Nat.exists_eq_add_of_le hn
  rw [hk, List.range_add, List.filterMap_append, ← filterMap_take v n hn]
  have h1 : (List.range n).filterMap (fun p => if p ∈ I then none else v[p]?) = (List.range n).filterMap (fun p => v[p]?) := by
    apply List.filterMap_congr
    intro p hp
    rw [List.mem_range] at hp
    have := hI p (by omega)
    rw [if_neg (by rw [this]; omega)]
  have h2 : ((List.range k).map (fun x => n + x)).filterMap (fun p => if p ∈ I then none else v[p]?) = [] := by
    rw [List.filterMap_eq_nil_iff]
    intro p hp
    obtain ⟨q, hq, rfl⟩ := List.mem_map.mp hp
    rw [List.mem_range] at hq
    rw [if_pos ((hI (n + q) (by omega)).mpr (by omega))]
  rw [h1, h2, List.append_nil]

/-- two entries at the end of `l` -/
theorem inserted_two {α : Type} (l : List α) (a b : α) : Inserted [(l.length : Int), (l.length : Int) + 1] [a, b] l (l ++ [a, b]) := by
  have hn : ((l.length : Int) + 1).toNat = l.length + 1 := by omega
  refine ⟨by simp, ?_, ?_, ?_⟩
  · intro p hp
    simp only [List.mem_cons, List.not_mem_nil, or_false] at hp
    simp only [List.length_append, List.length_cons, List.length_nil]
    rcases hp with rfl | rfl <;> constructor <;> push_cast <;> omega
  · intro p hp
    simp only [List.length_cons, List.length_nil] at hp
    have : p = 0 ∨ p = 1 := by omega
    rcases this with rfl | rfl
    · simp
    · simp [hn]
  · rw [removeAt_tail (l ++ [a, b]) _ l.length (by simp)]
    · simp
    · intro p hp
      simp only [List.length_append, List.length_cons, List.length_nil] at hp
      simp only [List.map_cons, List.map_nil, List.mem_cons, List.not_mem_nil, or_false, hn, Int.toNat_natCast]
      omega

/-- **C165** `insert_at_end` appends. -/
theorem C165_insert_at_end {e : Env X Y K} {s : State X Y K} {xl : List X} {yl : List Y} (h : Reach e s xl yl) (x : X) (y : Y) :
    Took e s (insertAtEnd e s x y) xl yl (xl ++ [x]) (yl ++ [y]) := by
  obtain ⟨h1, h2⟩ := size_eq h
  refine C165_now h (.insert s.N s.N x y) ⟨by omega, by omega, by omega, by omega⟩ ⟨⟨by omega, by omega, ?_⟩, by omega, by omega, ?_⟩
  · rw [Int.toNat_natCast, h1, List.insertIdx_length_self]
  · rw [Int.toNat_natCast, h2, List.insertIdx_length_self]

/-- **C165** `insert2_at_end` appends two, in the order given. -/
theorem C165_insert2_at_end {e : Env X Y K} {s : State X Y K} {xl : List X} {yl : List Y} (h : Reach e s xl yl) (x0 x1 : X) (y0 y1 : Y) :
    Took e s (insert2AtEnd e s x0 x1 y0 y1) xl yl (xl ++ [x0, x1]) (yl ++ [y0, y1]) := by
  obtain ⟨h1, h2⟩ := size_eq h
  have hv : ∀ n : Nat, ∀ a ∈ [(n : Int), (n : Int) + 1], 0 ≤ a ∧ a < n + (2 : Nat) := by
    intro n a ha
    simp only [List.mem_cons, List.not_mem_nil, or_false] at ha
    rcases ha with rfl | rfl <;> constructor <;> push_cast <;> omega
  refine C165_now h (.insertK [(s.N : Int), (s.N : Int) + 1] [(s.N : Int), (s.N : Int) + 1] [x0, x1] [y0, y1]) ?_ ⟨?_, ?_⟩
  · rw [h1]
    exact ⟨rfl, rfl, rfl, by simp, by simp, hv _, hv _, le_refl _⟩
  · rw [h1]; exact inserted_two xl x0 x1
  · rw [h2]; exact inserted_two yl y0 y1

/-- **C165** `remove_at_end` removes the last row and column; on an empty object it throws and nothing has changed. -/
theorem C165_remove_at_end {e : Env X Y K} {s : State X Y K} {xl : List X} {yl : List Y} (h : Reach e s xl yl) :
    (xl ≠ [] → Took e s (removeAtEnd e s) xl yl xl.dropLast yl.dropLast) ∧ (xl = [] → removeAtEnd e s = .throws s) := by
  obtain ⟨h1, h2⟩ := size_eq h
  constructor
  · intro hne
    have : 0 < xl.length := List.length_pos_of_ne_nil hne
    refine C165_now h (.remove ((s.N : Int) - 1) ((s.N : Int) - 1)) ⟨by omega, by omega, by omega, by omega⟩
      ⟨⟨by omega, by omega, ?_⟩, by omega, by omega, ?_⟩
    · rw [show ((s.N : Int) - 1).toNat = xl.length - 1 by omega, List.eraseIdx_length_sub_one]
    · rw [show ((s.N : Int) - 1).toNat = yl.length - 1 by omega, List.eraseIdx_length_sub_one]
  · rintro rfl
    have hN : s.N = 0 := h1
    have hl := h.good.2.1
    simp [removeAtEnd, removeNow, now, tryOp, tryRemove, hl, hN]

/-- **C165** `remove2_at_end` removes the last two rows and columns. With fewer than two it throws and nothing has changed. -/
theorem C165_remove2_at_end {e : Env X Y K} {s : State X Y K} {xl : List X} {yl : List Y} (h : Reach e s xl yl) :
    (2 ≤ xl.length → Took e s (remove2AtEnd e s) xl yl (xl.take (xl.length - 2)) (yl.take (yl.length - 2))) ∧
      (xl.length < 2 → remove2AtEnd e s = .throws s) := by
  obtain ⟨h1, h2⟩ := size_eq h
  constructor
  · intro hn
    have hv : ∀ n : Nat, 2 ≤ n → ∀ a ∈ [(n : Int) - 1, (n : Int) - 2], 0 ≤ a ∧ a < n := by
      intro n hn a ha
      simp only [List.mem_cons, List.not_mem_nil, or_false] at ha
      rcases ha with rfl | rfl <;> constructor <;> omega
    have hrem : ∀ {α : Type} (l : List α), 2 ≤ l.length → removeAt ([(l.length : Int) - 1, (l.length : Int) - 2].map Int.toNat) l = l.take (l.length - 2) := by
      intro α l hl
      apply removeAt_tail _ _ _ (by omega)
      intro p hp
      simp only [List.map_cons, List.map_nil, List.mem_cons, List.not_mem_nil, or_false]
      omega
    refine C165_now h (.removeK [(s.N : Int) - 1, (s.N : Int) - 2] [(s.N : Int) - 1, (s.N : Int) - 2]) ?_ ⟨⟨?_, ?_⟩, ?_, ?_⟩
    · rw [h1]
      exact ⟨rfl, by simp, by simp, hv _ hn, hv _ hn, le_refl _⟩
    · rw [h1]; exact hv _ hn
    · rw [h1]; exact (hrem xl hn).symm
    · rw [h2]; exact hv _ (by omega)
    · rw [h2]; exact (hrem yl (by omega)).symm
  · intro hn
    have hl := h.good.2.1
    have hN : s.N < 2 := by omega
    unfold remove2AtEnd remove2 now
    simp only [tryOp, tryRemoveK]
    rw [if_neg (by simp [hl]), if_pos (by omega)]

/-- **C165** Appending a row and a column and removing them again: the product of the two values is one and the lists are the old ones. -/
theorem C165_there_and_back {e : Env X Y K} {s s1 s2 : State X Y K} {xl : List X} {yl : List Y} (h : Reach e s xl yl) {x : X} {y : Y} {r r' : K}
    (h1 : insertAtEnd e s x y = .ok r s1) (h2 : removeAtEnd e s1 = .ok r' s2) : r * r' = 1 ∧ getX s2 = xl ∧ getY s2 = yl := by
  have t1 := C165_insert_at_end h x y
  rw [h1] at t1
  obtain ⟨v1, g1, -, -⟩ := t1
  have t2 := (C165_remove_at_end g1).1 (by simp)
  rw [h2] at t2
  obtain ⟨v2, g2, hx, hy⟩ := t2
  have n1 := (determinant_defined h).1
  have n2 := (determinant_defined g1).1
  rw [List.dropLast_concat, List.dropLast_concat] at v2
  rw [List.dropLast_concat] at hx hy
  refine ⟨?_, hx, hy⟩
  rw [v1, v2]
  unfold detOf
  rw [div_mul_div_comm, mul_comm, div_self (mul_ne_zero n1 n2)]

end

/-! ### The rooms of the two objects -/

/-- **C164 is false without the condition**: an object with four rows and room for eight is read into an object constructed with room for two. The
arguments are right, but the next insertion, possible in the original, accesses work arrays that are too small. -/
theorem C164_small_reader :
    Reach exEnv ex3 [6, 3, 1, 5] [2, 7, 8, 4] ∧ Reach exEnv (ctorSize 1) [] [] ∧ getX (h5Read (h5Write ex3) (ctorSize 1)) = [6, 3, 1, 5] ∧
    (tryOp exEnv ex3 (.insert 4 4 9 10)).isOk = true ∧
    (tryOp exEnv (h5Read (h5Write ex3) (ctorSize 1)) (.insert 4 4 9 10)).isUndef = true :=
  ⟨ex3_reach, Reach.init 1, by decide +kernel, by decide +kernel, by decide +kernel⟩

/-- The two precisions of the periodic check are not in the archive; the object keeps those it had. And the move constructor does not take over the
threshold for singular matrices. -/
theorem C164_settings_lost : ∃ b : State ℚ ℚ ℚ, Reach exEnv b [] [] ∧ (h5Read (h5Write b) (ctorSize 4)).precisionError ≠ b.precisionError ∧
    (moveCtor b).singularThreshold ≠ b.singularThreshold :=
  ⟨_, Reach.options 100 (1 / 2) 0 0 (Reach.init 4), by decide +kernel, by decide +kernel⟩

/-! ### Examples -/

example : ex3.Nmax = 8 ∧ ex3.N = 4 := by decide +kernel
-- room for eight is enough
example : Reach exEnv (h5Read (h5Write ex3) (ctorSize 4)) [6, 3, 1, 5] [2, 7, 8, 4] := Reach.archive ex3_reach (Reach.init 4) (by decide +kernel)
example : (tryOp exEnv (h5Read (h5Write ex3) (ctorSize 4)) (.insert 4 4 9 10)).val = (tryOp exEnv ex3 (.insert 4 4 9 10)).val := by decide +kernel
example : (determinant exEnv (h5Read (h5Write ex4) (ctorSize 0))).val = some (-5 / 2594592) := by decide +kernel
-- a pending removal is forgotten
example : getX (h5Read (h5Write ((tryOp exEnv ex3 (.remove 1 2)).state fresh)) (ctorSize 4)) = [6, 3, 1, 5] := by decide +kernel
-- move construction
example : getX (moveCtor ex2) = [3, 1] ∧ ex2.kmax = 1 := by decide +kernel
-- short cuts
example : (insertAtEnd exEnv ex2 5 6).val = (tryOp exEnv ex2 (.insert 2 2 5 6)).val := by decide +kernel
example : getX ((insertAtEnd exEnv ex2 5 6).state fresh) = [3, 1, 5] ∧ getY ((insert2AtEnd exEnv ex1 5 6 7 8).state fresh) = [2, 7, 8] := by decide +kernel
example : getX ((remove2AtEnd exEnv ex3).state fresh) = [6, 3] ∧ (removeAtEnd exEnv (ctorSize 3)).isThrow = true := by decide +kernel
example : getX ((insert2 exEnv ex1 0 2 1 0 5 6 7 8).state fresh) = [5, 1, 6] := by decide +kernel

end Verif.DetManip
