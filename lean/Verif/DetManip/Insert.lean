import Verif.DetManip.User

/-!
# det_manip: invariant, insertion of one row and column
-/

namespace Verif.DetManip

open Matrix

set_option linter.unusedSectionVars false

section
variable {X Y K : Type} [Inhabited X] [Inhabited Y] [Field K] [DecidableEq K]

/-- sizes of the work arrays -/
structure Caps (s : State X Y K) : Prop where
  k1 : 1 ≤ s.kmax
  w : s.Nmax ≤ s.w1.cap
  wk : 2 ≤ s.kmax → s.Nmax ≤ s.wk.capN ∧ s.kmax ≤ s.wk.capK
  wk1 : s.kmax < 2 → s.wk.capK = 0

/-- tables, arguments and inverse are consistent -/
structure Mid (e : Env X Y K) (s : State X Y K) : Prop where
  lx : s.xs.length = s.N
  ly : s.ys.length = s.N
  row : IsPerm s.N s.row
  col : IsPerm s.N s.col
  inv : IsInv s.N (at2 s.inv) (U e.f s.xs s.ys)
  caps : Caps s
  nmax : s.N ≤ s.Nmax

/-- and so is the determinant -/
structure Good (e : Env X Y K) (s : State X Y K) : Prop extends Mid e s where
  sgn : s.sign = 1 ∨ s.sign = -1
  det : (s.sign : K) * s.det = dX e.f (getX s) (getY s)

/-- the state left by the operation-specific part of a completion, before `det` and `sign` are assigned -/
structure After (e : Env X Y K) (s : State X Y K) : Prop extends Mid e s where
  sgn : s.newsign = 1 ∨ s.newsign = -1
  det : (s.newsign : K) * s.newdet = dX e.f (getX s) (getY s)

/-- result of a successful try -/
structure Outcome (e : Env X Y K) (s : State X Y K) (r : K) (s1 : State X Y K) (x' : List X) (y' : List Y) : Prop where
  good : Good e s1
  gx : getX s1 = getX s
  gy : getY s1 = getY s
  opts : s1.nOpts = s.nOpts
  last : s1.lastTry ≠ .noTry
  len : x'.length = y'.length
  ratio : r * dX e.f (getX s) (getY s) = dX e.f x' y'
  done : ∀ s2, completeCase s1 = some s2 → After e s2 ∧ getX s2 = x' ∧ getY s2 = y'
  defined : dX e.f x' y' ≠ 0 → ∃ s2, completeCase s1 = some s2

theorem getX_eq (s : State X Y K) (h : s.row.length = s.N) : getX s = s.row.map (nth s.xs) := by
  unfold getX
  apply ext_nth
  · simp [h]
  · intro i hi
    have hi' : i < s.N := by simpa using hi
    rw [nth_map _ (by simpa using hi'), nth_map _ (by omega)]
    simp [hi']

theorem getY_eq (s : State X Y K) (h : s.col.length = s.N) : getY s = s.col.map (nth s.ys) := by
  unfold getY
  apply ext_nth
  · simp [h]
  · intro i hi
    have hi' : i < s.N := by simpa using hi
    rw [nth_map _ (by simpa using hi'), nth_map _ (by omega)]
    simp [hi']

theorem getX_length (s : State X Y K) : (getX s).length = s.N := by simp [getX]
theorem getY_length (s : State X Y K) : (getY s).length = s.N := by simp [getY]

/-- only capacities change -/
theorem reserve_eq (s : State X Y K) (n : Int) (k : Nat) : ∃ a b c d g, reserve s n k =
    { s with Nmax := a, kmax := b, w1 := { s.w1 with cap := c }, wk := { s.wk with capN := d, capK := g } } := by
  unfold reserve Wk.resize
  by_cases h1 : k > s.kmax <;> by_cases h2 : n ≤ (s.Nmax : Int) <;> by_cases h3 : k < 2 <;> by_cases h4 : s.kmax < 2 <;>
    simp only [h1, h2, h3, h4, if_true, if_false] <;> split_ifs <;>
    first | exact ⟨_, _, _, _, _, rfl⟩

theorem reserve_caps (s : State X Y K) (n : Int) (k : Nat) (h : Caps s) :
    Caps (reserve s n k) ∧ n ≤ ((reserve s n k).Nmax : Int) ∧ k ≤ (reserve s n k).kmax ∧ s.Nmax ≤ (reserve s n k).Nmax := by
  obtain ⟨k1, w, wk, wk1⟩ := h
  unfold reserve Wk.resize
  by_cases h1 : k > s.kmax <;> by_cases h2 : n ≤ (s.Nmax : Int) <;>
    simp only [h1, h2, if_true, if_false] <;> split_ifs <;>
    (refine ⟨⟨?_, ?_, ?_, ?_⟩, ?_, ?_, ?_⟩ <;> (try simp only) <;> first | omega | (intro hk; have := wk; omega) | (intro hk; exact wk hk) | (intro hk; exact wk1 hk))

theorem Good.of_core {e : Env X Y K} {s s1 : State X Y K} (G : Good e s) (hN : s1.N = s.N) (hr : s1.row = s.row) (hc : s1.col = s.col)
    (hx : s1.xs = s.xs) (hy : s1.ys = s.ys) (hi : s1.inv = s.inv) (hs : s1.sign = s.sign) (hd : s1.det = s.det) (hcaps : Caps s1)
    (hn : s.N ≤ s1.Nmax) : Good e s1 where
  lx := by rw [hx, hN, G.lx]
  ly := by rw [hy, hN, G.ly]
  row := by rw [hr, hN]; exact G.row
  col := by rw [hc, hN]; exact G.col
  inv := by rw [hi, hx, hy, hN]; exact G.inv
  caps := hcaps
  nmax := by rw [hN]; exact hn
  sgn := by rw [hs]; exact G.sgn
  det := by
    have h1 : getX s1 = getX s := by unfold getX; rw [hN, hr, hx]
    have h2 : getY s1 = getY s := by unfold getY; rw [hN, hc, hy]
    rw [h1, h2, hs, hd]; exact G.det

theorem Good.d_ne {e : Env X Y K} {s : State X Y K} (G : Good e s) : dX e.f (getX s) (getY s) ≠ 0 := by
  have := (G.inv.ord G.row G.col).det_ne
  rw [getX_eq s G.row.length, getY_eq s G.col.length, ← detO_U e.f s.xs s.ys G.row.length G.col.length]
  exact this

theorem Mid.dX_perm {e : Env X Y K} {s : State X Y K} (G : Mid e s) :
    dX e.f (getX s) (getY s) = ((permDet s.N s.row * permDet s.N s.col : ℤ) : K) * detN s.N (U e.f s.xs s.ys) := by
  rw [getX_eq s G.row.length, getY_eq s G.col.length, ← detO_U e.f s.xs s.ys G.row.length G.col.length, detO_perm _ G.row G.col]

theorem flip_cast (σ : Int) (a : Nat) : ((flip σ (a : Int) : Int) : K) = (σ : K) * (-1) ^ a := by
  unfold flip
  by_cases h : (a : Int) % 2 = 0
  · rw [if_pos h]
    have : Even a := by rw [Nat.even_iff]; omega
    rw [this.neg_one_pow, mul_one]
  · rw [if_neg h]
    have : Odd a := by rw [Nat.odd_iff]; omega
    rw [this.neg_one_pow]
    push_cast; ring

theorem flip_sgn {σ : Int} (h : σ = 1 ∨ σ = -1) (a : Int) : flip σ a = 1 ∨ flip σ a = -1 := by
  unfold flip; split_ifs <;> omega

theorem sq_one {σ : Int} (h : σ = 1 ∨ σ = -1) : (σ : K) * σ = 1 := by
  rcases h with h | h <;> subst h <;> simp

theorem dX_nil (f : X → Y → K) : dX f ([] : List X) ([] : List Y) = 1 := by
  unfold dX detN; simp

theorem dX_one (f : X → Y → K) (x : X) (y : Y) : dX f [x] [y] = f x y := by
  unfold dX detN; simp [U, nth]

theorem detN_one (g : Nat → Nat → K) : detN 1 g = g 0 0 := by
  unfold detN; simp

theorem isInv_one {b g : Nat → Nat → K} (h : b 0 0 * g 0 0 = 1) : IsInv 1 b g := by
  unfold IsInv
  ext i j
  have hi : i = 0 := Subsingleton.elim _ _
  have hj : j = 0 := Subsingleton.elim _ _
  subst hi; subst hj
  simp [toM, Matrix.mul_apply, h]

/-- `ξ` as computed -/
theorem ksi_eq (f : X → Y → K) (n : Nat) (a : Nat → Nat → K) (xs : List X) (ys : List Y) (x : X) (y : Y) :
    f x y - dot n (at1 (vec n (fun l => f x (nth ys l)))) (at1 (vec n (fun l => dot n (a l) (at1 (vec n (fun l => f (nth xs l) y)))))) =
      xi f n a xs ys [x] [y] 0 0 := by
  have : dot n (at1 (vec n (fun l => f x (nth ys l)))) (at1 (vec n (fun l => dot n (a l) (at1 (vec n (fun l => f (nth xs l) y)))))) =
      ∑ p : Fin n, ∑ q : Fin n, f x (nth ys p) * a p q * f (nth xs q) y := by
    rw [dot_eq]
    apply Finset.sum_congr rfl
    intro p _
    rw [at1_vec _ p.2, at1_vec _ p.2, dot_eq, Finset.mul_sum]
    apply Finset.sum_congr rfl
    intro q _
    rw [at1_vec _ q.2]; ring
  rw [this]; rfl

theorem insertIdx_zero_nil {α : Type} (x : α) : ([] : List α).insertIdx 0 x = [x] := rfl

/-- **insertion of one row and one column** -/
theorem tryInsert_outcome {e : Env X Y K} {s : State X Y K} (G : Good e s) {i j : Int} {x : X} {y : Y} {r : K} {s1 : State X Y K}
    (h : tryInsert e s i j x y = .ok r s1) :
    (0 ≤ i ∧ i ≤ s.N ∧ 0 ≤ j ∧ j ≤ s.N) ∧ Outcome e s r s1 ((getX s).insertIdx i.toNat x) ((getY s).insertIdx j.toNat y) := by
  unfold tryInsert at h
  split_ifs at h with h1 h2 h3
  refine ⟨⟨h2.1, h2.2, h3.1, h3.2⟩, ?_⟩
  obtain ⟨i, rfl⟩ := Int.eq_ofNat_of_zero_le h2.1
  obtain ⟨j, rfl⟩ := Int.eq_ofNat_of_zero_le h3.1
  have hi : i ≤ s.N := by have := h2.2; omega
  have hj : j ≤ s.N := by have := h3.2; omega
  clear h1 h2 h3
  simp only [Int.toNat_natCast] at h ⊢
  obtain ⟨a, b, c, d, g, hres⟩ := reserve_eq s (s.N + 1 : Int) 1
  obtain ⟨hcaps, hnm, -, -⟩ := reserve_caps s (s.N + 1 : Int) 1 G.caps
  rw [hres] at h hcaps hnm
  simp only at hnm
  have hgx := getX_eq s G.row.length
  have hgy := getY_eq s G.col.length
  have lenX := getX_length s
  have lenY := getY_length s
  -- positions of the inserted elements
  have lx' : ((getX s).insertIdx i x).length = s.N + 1 := by rw [List.length_insertIdx, lenX, if_pos hi]
  have ly' : ((getY s).insertIdx j y).length = s.N + 1 := by rw [List.length_insertIdx, lenY, if_pos hj]
  unfold tryInsertCore at h
  by_cases hN : s.N = 0
  · -- empty matrix
    rw [if_pos (show ({ s with Nmax := a, kmax := b, w1 := _, wk := _, lastTry := .insert } : State X Y K).N = 0 from hN)] at h
    injection h with hr hs
    have hX0 : getX s = [] := List.length_eq_zero_iff.mp (by rw [lenX, hN])
    have hY0 : getY s = [] := List.length_eq_zero_iff.mp (by rw [lenY, hN])
    have hi0 : i = 0 := by omega
    have hj0 : j = 0 := by omega
    subst hi0; subst hj0
    rw [hX0, hY0, insertIdx_zero_nil, insertIdx_zero_nil]
    have hxs : s.xs = [] := List.length_eq_zero_iff.mp (by rw [G.lx, hN])
    have hys : s.ys = [] := List.length_eq_zero_iff.mp (by rw [G.ly, hN])
    have hrow : s.row = [] := List.length_eq_zero_iff.mp (by rw [G.row.length, hN])
    have hcol : s.col = [] := List.length_eq_zero_iff.mp (by rw [G.col.length, hN])
    subst hs
    refine ⟨?_, rfl, rfl, rfl, by simp, rfl, ?_, ?_, ?_⟩
    · exact G.of_core rfl rfl rfl rfl rfl rfl rfl rfl ⟨hcaps.k1, hcaps.w, hcaps.wk, hcaps.wk1⟩ (by simp only; omega)
    · rw [hX0, hY0, dX_nil, dX_one, ← hr, mul_one]
    · intro s2 h2
      simp only [completeCase, completeInsert, if_pos hN] at h2
      split_ifs at h2 with h0
      injection h2 with h2
      subst h2
      have hp : IsPerm 1 [0] := List.Perm.refl _
      refine ⟨⟨⟨?_, ?_, ?_, ?_, ?_, ⟨hcaps.k1, hcaps.w, hcaps.wk, hcaps.wk1⟩, ?_⟩, Or.inl rfl, ?_⟩, ?_, ?_⟩
      · simp [hxs]
      · simp [hys]
      · simpa [hrow] using hp
      · simpa [hcol] using hp
      · apply isInv_one
        simp only [hxs, hys, List.nil_append]
        rw [at2_mat _ (by omega) (by omega)]
        simpa [U, nth] using inv_mul_cancel₀ h0
      · simp only; omega
      · have g1 : getX ({ s with xs := s.xs ++ [x], row := s.row ++ [0], N := 1 } : State X Y K) = [x] := by simp [getX, hxs, hrow, nth]
        have g2 : getY ({ s with ys := s.ys ++ [y], col := s.col ++ [0], N := 1 } : State X Y K) = [y] := by simp [getY, hys, hcol, nth]
        have e1 := dX_one e.f x y
        simp only [getX, getY] at g1 g2 ⊢
        rw [g1, g2, e1]; simp
      · simp [getX, hxs, hrow, nth]
      · simp [getY, hys, hcol, nth]
    · intro hne
      rw [dX_one] at hne
      simp only [completeCase, completeInsert, if_pos hN]
      rw [if_neg hne]
      exact ⟨_, rfl⟩
  · -- general case
    rw [if_neg (show ¬ ({ s with Nmax := a, kmax := b, w1 := _, wk := _, lastTry := .insert } : State X Y K).N = 0 from hN)] at h
    split_ifs at h with hcap
    simp only at hcap
    have hc1 := hcaps.w
    simp only at hc1
    injection h with hr hs
    rw [ksi_eq e.f s.N (at2 s.inv) s.xs s.ys x y] at hr hs
    -- determinant of the result
    have hI : select [i] ((getX s).insertIdx i x) = [x] := by
      rw [select_singleton, nth_insertIdx _ _ _ _ (by omega)]; simp
    have hJ : select [j] ((getY s).insertIdx j y) = [y] := by
      rw [select_singleton, nth_insertIdx _ _ _ _ (by omega)]; simp
    have hI2 : removeAt [i] ((getX s).insertIdx i x) = s.row.map (nth s.xs) := by
      rw [removeAt_singleton _ _ (by omega), List.eraseIdx_insertIdx_self, hgx]
    have hJ2 : removeAt [j] ((getY s).insertIdx j y) = s.col.map (nth s.ys) := by
      rw [removeAt_singleton _ _ (by omega), List.eraseIdx_insertIdx_self, hgy]
    have hd := dX_insert e.f G.lx G.ly G.inv G.row G.col (x' := (getX s).insertIdx i x) (y' := (getY s).insertIdx j y) (xn := [x]) (yn := [y])
      (k := 1) rfl rfl (I := [i]) (J := [j]) lx' ly' rfl rfl (by simp) (by simp) (by simp; omega) (by simp; omega) hI2 hI hJ2 hJ
    rw [detN_one, ← hgx, ← hgy] at hd
    simp only [List.sum_cons, List.sum_nil, Nat.add_zero] at hd
    generalize hξ : xi e.f s.N (at2 s.inv) s.xs s.ys [x] [y] 0 0 = ξ at hr hs hd
    have hfl := flip_cast (K := K) s.sign (i + j)
    push_cast at hfl
    have hsq := sq_one (K := K) G.sgn
    have hfs := flip_sgn G.sgn ((i : Int) + j)
    have hGd := G.det
    subst hs
    refine ⟨?_, rfl, rfl, rfl, by simp, by rw [lx', ly'], ?_, ?_, ?_⟩
    · exact G.of_core rfl rfl rfl rfl rfl rfl rfl rfl ⟨hcaps.k1, hcaps.w, hcaps.wk, hcaps.wk1⟩ (by simp only; omega)
    · rw [← hr, hd]
      push_cast
      rw [hfl]
      linear_combination (ξ * (-1) ^ (i + j) * dX e.f (getX s) (getY s)) * hsq
    · intro s2 h2
      simp only [completeCase, completeInsert, if_neg hN] at h2
      split_ifs at h2 with h0
      injection h2 with h2
      rw [not_or] at h0
      have hξ0 : ξ ≠ 0 := h0.2
      have hrow' : insertNum (s.row ++ [0]) (s.N + 1) i = s.row.insertIdx i s.N := by
        have := insertNum_eq s.row [] i (by rw [G.row.length]; exact hi) 0
        rw [G.row.length] at this; simpa using this
      have hcol' : insertNum (s.col ++ [0]) (s.N + 1) j = s.col.insertIdx j s.N := by
        have := insertNum_eq s.col [] j (by rw [G.col.length]; exact hj) 0
        rw [G.col.length] at this; simpa using this
      have hpr := G.row.insertIdx i hi
      have hpc := G.col.insertIdx j hj
      have hgx' : (s.row.insertIdx i s.N).map (nth (s.xs ++ [x])) = (getX s).insertIdx i x := by
        rw [map_insertIdx' _ _ _ _ (by rw [G.row.length]; exact hi), map_nth_append _ _ (fun a ha => by rw [G.lx]; exact G.row.lt ha), ← hgx,
          nth_append_right (by rw [G.lx]), G.lx]
        simp [nth]
      have hgy' : (s.col.insertIdx j s.N).map (nth (s.ys ++ [y])) = (getY s).insertIdx j y := by
        rw [map_insertIdx' _ _ _ _ (by rw [G.col.length]; exact hj), map_nth_append _ _ (fun a ha => by rw [G.ly]; exact G.col.lt ha), ← hgy,
          nth_append_right (by rw [G.ly]), G.ly]
        simp [nth]
      rw [hrow', hcol'] at h2
      have gX : getX s2 = (getX s).insertIdx i x := by
        rw [← hgx', ← h2]; exact getX_eq _ hpr.length
      have gY : getY s2 = (getY s).insertIdx j y := by
        rw [← hgy', ← h2]; exact getY_eq _ hpc.length
      refine ⟨⟨⟨?_, ?_, ?_, ?_, ?_, ?_, ?_⟩, ?_, ?_⟩, gX, gY⟩
      · rw [← h2]; simp [G.lx]
      · rw [← h2]; simp [G.ly]
      · rw [← h2]; exact hpr
      · rw [← h2]; exact hpc
      · rw [← h2]
        simp only
        have hcut : ∀ p < s.N, ∀ q < s.N, U e.f s.xs s.ys p q = U e.f (s.xs ++ [x]) (s.ys ++ [y]) p q := by
          intro p hp q hq
          unfold U
          rw [nth_append_left (by rw [G.lx]; exact hp), nth_append_left (by rw [G.ly]; exact hq)]
        have hinv : IsInv s.N (at2 s.inv) (U e.f (s.xs ++ [x]) (s.ys ++ [y])) := G.inv.congr (fun _ _ _ _ => rfl) hcut
        have ex : nth (s.xs ++ [x]) s.N = x := by rw [nth_append_right (by rw [G.lx]), G.lx]; simp [nth]
        have ey : nth (s.ys ++ [y]) s.N = y := by rw [nth_append_right (by rw [G.ly]), G.ly]; simp [nth]
        have exl : ∀ p : Fin s.N, nth (s.xs ++ [x]) p = nth s.xs p := fun p => nth_append_left (by rw [G.lx]; exact p.2)
        have eyl : ∀ p : Fin s.N, nth (s.ys ++ [y]) p = nth s.ys p := fun p => nth_append_left (by rw [G.ly]; exact p.2)
        have hsch : schur s.N (at2 s.inv) (U e.f (s.xs ++ [x]) (s.ys ++ [y])) 0 0 = ξ := by
          rw [← hξ]
          unfold schur xi U
          simp only [Nat.add_zero, ex, ey, exl, eyl]
          rfl
        -- the stored vectors
        have hMB : ∀ p : Nat, p < s.N → at1 (vec s.N (fun l => dot s.N (at2 s.inv l) (at1 (vec s.N (fun l => e.f (nth s.xs l) y))))) p =
            ∑ q : Fin s.N, at2 s.inv p q * U e.f (s.xs ++ [x]) (s.ys ++ [y]) q s.N := by
          intro p hp
          rw [at1_vec _ hp, dot_eq]
          apply Finset.sum_congr rfl
          intro q _
          rw [at1_vec _ q.2]; unfold U; rw [exl, ey]
        have hMC : ∀ p : Nat, p < s.N → dot s.N (fun m => at2 s.inv m p) (at1 (vec s.N (fun l => e.f x (nth s.ys l)))) =
            ∑ q : Fin s.N, U e.f (s.xs ++ [x]) (s.ys ++ [y]) s.N q * at2 s.inv q p := by
          intro p hp
          rw [dot_eq]
          apply Finset.sum_congr rfl
          intro q _
          rw [at1_vec _ q.2]; unfold U; rw [eyl, ex]; ring
        have vMB : ∀ p, p < s.N + 1 → at1 (vec (s.N + 1) (fun l => if l < s.N then
            at1 (vec s.N (fun l => dot s.N (at2 s.inv l) (at1 (vec s.N (fun l => e.f (nth s.xs l) y))))) l else -1)) p =
            if p < s.N then ∑ q : Fin s.N, at2 s.inv p q * U e.f (s.xs ++ [x]) (s.ys ++ [y]) q s.N else -1 := by
          intro p hp
          rw [at1_vec _ hp]
          by_cases hp' : p < s.N
          · rw [if_pos hp', if_pos hp', hMB p hp']
          · rw [if_neg hp', if_neg hp']
        have vMC : ∀ p, p < s.N + 1 → at1 (vec (s.N + 1) (fun l => if l < s.N then
            dot s.N (fun m => at2 s.inv m l) (at1 (vec s.N (fun l => e.f x (nth s.ys l)))) else -1)) p =
            if p < s.N then ∑ q : Fin s.N, U e.f (s.xs ++ [x]) (s.ys ++ [y]) s.N q * at2 s.inv q p else -1 := by
          intro p hp
          rw [at1_vec _ hp]
          by_cases hp' : p < s.N
          · rw [if_pos hp', if_pos hp', hMC p hp']
          · rw [if_neg hp', if_neg hp']
        apply hinv.border (k := 1) (fun _ _ => 1 / ξ)
        · apply isInv_one; rw [hsch]; field_simp
        · intro p hp q hq
          rw [at2_mat _ (by omega) (by omega), if_pos ⟨hp, hq⟩, vMB p (by omega), vMC q (by omega), if_pos hp, if_pos hq]
          simp only [Finset.univ_unique, Fin.default_eq_zero, Finset.sum_singleton, Fin.val_zero, Nat.add_zero]
          ring
        · intro p hp m hm
          have hm0 : m = 0 := by omega
          subst hm0
          rw [at2_mat _ (by omega) (by omega), if_neg (by omega), vMB p (by omega), vMC _ (by omega), if_pos hp, if_neg (by omega)]
          simp; ring
        · intro l hl q hq
          have hl0 : l = 0 := by omega
          subst hl0
          rw [at2_mat _ (by omega) (by omega), if_neg (by omega), vMB _ (by omega), vMC q (by omega), if_neg (by omega), if_pos hq]
          simp
        · intro l hl m hm
          have hl0 : l = 0 := by omega
          have hm0 : m = 0 := by omega
          subst hl0; subst hm0
          rw [at2_mat _ (by omega) (by omega), if_neg (by omega), vMB _ (by omega), vMC _ (by omega), if_neg (by omega)]
          simp
      · rw [← h2]; exact ⟨hcaps.k1, hcaps.w, hcaps.wk, hcaps.wk1⟩
      · rw [← h2]; simp only; omega
      · rw [← h2]; exact hfs
      · rw [gX, gY, hd, ← h2]
        simp only
        rw [hfl]
        linear_combination ((-1) ^ (i + j) * ξ) * hGd
    · intro hne
      simp only [completeCase, completeInsert, if_neg hN]
      rw [if_neg]
      · exact ⟨_, rfl⟩
      · rw [not_or]
        refine ⟨by omega, ?_⟩
        intro h0
        exact hne (by rw [hd, h0]; ring)

end

end Verif.DetManip
