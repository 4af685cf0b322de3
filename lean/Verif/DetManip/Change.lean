import Verif.DetManip.Insert

/-!
# det_manip: change of rows and columns, refill, exchanges, rotations, regeneration
-/

namespace Verif.DetManip

open Matrix

set_option linter.unusedSectionVars false

section
variable {X Y K : Type} [Inhabited X] [Inhabited Y] [Field K] [DecidableEq K]

theorem map_set_perm {α : Type} [Inhabited α] {n : Nat} {r : List Nat} (h : IsPerm n r) {l : List α} (hl : l.length = n) {p : Nat} (hp : p < n) (v : α) :
    r.map (nth (l.set (r.getD p 0) v)) = (r.map (nth l)).set p v := by
  have hr := h.length
  apply ext_nth
  · simp
  · intro i hi
    have hi' : i < n := by simpa [hr] using hi
    rw [nth_map _ (by omega), nth_set (by rw [hl]; exact h.getD_lt hp), nth_set (by simpa [hr] using hp)]
    by_cases hip : i = p
    · subst hip; simp
    · rw [if_neg (fun he => hip (h.inj hi' hp he)), if_neg hip, nth_map _ (by omega)]

/-- determinant for the same tables and other arguments -/
theorem dX_tables (f : X → Y → K) {n : Nat} {r c : List Nat} (hr : IsPerm n r) (hc : IsPerm n c) (xs : List X) (ys : List Y) :
    dX f (r.map (nth xs)) (c.map (nth ys)) = ((permDet n r * permDet n c : ℤ) : K) * detN n (U f xs ys) := by
  rw [← detO_U f xs ys hr.length hc.length, detO_perm _ hr hc]

theorem at1_set (v : List K) {i j : Nat} {z : K} (hj : j < v.length) : at1 (v.set j z) i = if i = j then z else at1 v i := by
  unfold at1
  rw [List.getD_eq_getElem?_getD, List.getElem?_set]
  by_cases h : i = j
  · subst h; simp [hj]
  · rw [if_neg (fun h' => h h'.symm), if_neg h]; rfl

theorem dot_sub {n : Nat} (g h h' : Nat → K) : dot n g (fun l => h l - h' l) = dot n g h - dot n g h' := by
  unfold dot; rw [← Finset.sum_sub_distrib]; apply Finset.sum_congr rfl; intro l _; ring

theorem dot_comm {n : Nat} (g h : Nat → K) : dot n g h = dot n h g := by
  unfold dot; apply Finset.sum_congr rfl; intro l _; ring

/-- a row of the inverse times a column of the matrix -/
theorem IsInv.dot_eq {n : Nat} {a g : Nat → Nat → K} (h : IsInv n a g) {i j : Nat} (hi : i < n) (hj : j < n) :
    dot n (a i) (fun m => g m j) = if i = j then 1 else 0 := by
  have := congrFun (congrFun h ⟨i, hi⟩) ⟨j, hj⟩
  rw [Matrix.mul_apply] at this
  rw [Verif.DetManip.dot_eq]
  refine Eq.trans this ?_
  rw [Matrix.one_apply]
  simp only [Fin.mk.injEq]

theorem tryChangeCol_outcome {e : Env X Y K} {s : State X Y K} (G : Good e s) {j : Int} {y : Y} {r : K} {s1 : State X Y K}
    (h : tryChangeCol e s j y = .ok r s1) : (0 ≤ j ∧ j < s.N) ∧ Outcome e s r s1 (getX s) ((getY s).set j.toNat y) := by
  unfold tryChangeCol at h
  split_ifs at h with h1 h2 h3
  refine ⟨h2, ?_⟩
  obtain ⟨j, rfl⟩ := Int.eq_ofNat_of_zero_le h2.1
  have hj : j < s.N := by have := h2.2; omega
  simp only [Int.toNat_natCast] at h ⊢
  injection h with hr hs
  have hgx := getX_eq s G.row.length
  have hgy := getY_eq s G.col.length
  have hjr : s.col.getD j 0 < s.N := G.col.getD_lt hj
  generalize hJ : s.col.getD j 0 = jr at hr hs hjr
  have hY' : s.col.map (nth (s.ys.set jr y)) = (getY s).set j y := by rw [hgy, ← hJ]; exact map_set_perm G.col G.ly hj y
  -- the vector of the change
  have hMB : ∀ i, i < s.N → at1 (vec s.N (fun i => dot s.N (at2 s.inv i) (at1 (vec s.N (fun i => e.f (nth s.xs i) y - e.f (nth s.xs i) (nth s.ys jr)))))) i
      = dot s.N (at2 s.inv i) (fun m => U e.f s.xs (s.ys.set jr y) m jr) - if i = jr then 1 else 0 := by
    intro i hi
    rw [at1_vec _ hi, ← G.inv.dot_eq hi hjr, ← dot_sub]
    apply dot_congr (fun _ _ => rfl)
    intro l hl
    rw [at1_vec _ hl]
    unfold U
    rw [nth_set (by rw [G.ly]; exact hjr), if_pos rfl]
  have hksi : 1 + at1 (vec s.N (fun i => dot s.N (at2 s.inv i) (at1 (vec s.N (fun i => e.f (nth s.xs i) y - e.f (nth s.xs i) (nth s.ys jr)))))) jr
      = dot s.N (at2 s.inv jr) (fun m => U e.f s.xs (s.ys.set jr y) m jr) := by
    rw [hMB jr hjr, if_pos rfl]; ring
  have hcols : ∀ i < s.N, ∀ l < s.N, l ≠ jr → U e.f s.xs (s.ys.set jr y) i l = U e.f s.xs s.ys i l := by
    intro i _ l _ hl
    unfold U
    rw [nth_set (by rw [G.ly]; exact hjr), if_neg hl]
  rw [hksi] at hr hs
  have hd : dX e.f (getX s) ((getY s).set j y) = dX e.f (getX s) (getY s) * dot s.N (at2 s.inv jr) (fun m => U e.f s.xs (s.ys.set jr y) m jr) := by
    rw [← hY', hgx, hgy, dX_tables e.f G.row G.col, dX_tables e.f G.row G.col, detN_col G.inv hjr hcols]
    ring
  have hGd := G.det
  generalize hξ : dot s.N (at2 s.inv jr) (fun m => U e.f s.xs (s.ys.set jr y) m jr) = ξ at hr hs hd
  subst hs
  refine ⟨?_, rfl, rfl, rfl, by simp, by simp [getX_length, getY_length], ?_, ?_, ?_⟩
  · exact G.of_core rfl rfl rfl rfl rfl rfl rfl rfl ⟨G.caps.k1, G.caps.w, G.caps.wk, G.caps.wk1⟩ G.nmax
  · rw [← hr, hd]; ring
  · intro s2 h2
    simp only [completeCase, completeChangeCol] at h2
    split_ifs at h2 with h0
    injection h2 with h2
    have gX : getX s2 = getX s := by rw [← h2]; rfl
    have gY : getY s2 = (getY s).set j y := by rw [← hY', ← h2]; exact getY_eq _ G.col.length
    refine ⟨⟨⟨?_, ?_, ?_, ?_, ?_, ?_, ?_⟩, ?_, ?_⟩, gX, gY⟩
    · rw [← h2]; exact G.lx
    · rw [← h2]; simpa using G.ly
    · rw [← h2]; exact G.row
    · rw [← h2]; exact G.col
    · rw [← h2]
      simp only
      apply G.inv.col hjr hcols (by rw [hξ]; exact h0)
      intro i hi l hl
      rw [at2_mat _ hi hl, hξ]
      have hlen : (vec s.N (fun i => dot s.N (at2 s.inv i) (at1 (vec s.N (fun i => e.f (nth s.xs i) y - e.f (nth s.xs i) (nth s.ys jr)))))).length = s.N := by
        simp [vec]
      have hset : at1 ((vec s.N (fun i => dot s.N (at2 s.inv i) (at1 (vec s.N (fun i => e.f (nth s.xs i) y - e.f (nth s.xs i) (nth s.ys jr)))))).set jr 0) i
          = if i = jr then 0 else dot s.N (at2 s.inv i) (fun m => U e.f s.xs (s.ys.set jr y) m jr) := by
        rw [at1_set _ (by rw [hlen]; exact hjr)]
        by_cases hij : i = jr
        · rw [if_pos hij, if_pos hij]
        · rw [if_neg hij, if_neg hij]
          have := hMB i hi
          rw [if_neg hij, sub_zero] at this
          exact this
      rw [hset]
      by_cases hij : i = jr
      · subst hij; simp; field_simp
      · simp only [if_neg hij]; field_simp; ring
    · rw [← h2]; exact ⟨G.caps.k1, G.caps.w, G.caps.wk, G.caps.wk1⟩
    · rw [← h2]; exact G.nmax
    · rw [← h2]; exact G.sgn
    · rw [gX, gY, hd, ← h2]
      simp only
      linear_combination ξ * hGd
  · intro hne
    simp only [completeCase, completeChangeCol]
    rw [if_neg]
    · exact ⟨_, rfl⟩
    · intro h0; exact hne (by rw [hd, h0, mul_zero])

theorem tryChangeRow_outcome {e : Env X Y K} {s : State X Y K} (G : Good e s) {i : Int} {x : X} {r : K} {s1 : State X Y K}
    (h : tryChangeRow e s i x = .ok r s1) : (0 ≤ i ∧ i < s.N) ∧ Outcome e s r s1 ((getX s).set i.toNat x) (getY s) := by
  unfold tryChangeRow at h
  split_ifs at h with h1 h2 h3 h4
  refine ⟨⟨by omega, h2⟩, ?_⟩
  obtain ⟨i, rfl⟩ := Int.eq_ofNat_of_zero_le (show 0 ≤ i by omega)
  have hi : i < s.N := by omega
  simp only [Int.toNat_natCast] at h ⊢
  injection h with hr hs
  have hgx := getX_eq s G.row.length
  have hgy := getY_eq s G.col.length
  have hir : s.row.getD i 0 < s.N := G.row.getD_lt hi
  generalize hI : s.row.getD i 0 = ir at hr hs hir
  have hX' : s.row.map (nth (s.xs.set ir x)) = (getX s).set i x := by rw [hgx, ← hI]; exact map_set_perm G.row G.lx hi x
  have hT := G.inv.transpose
  have hMC : ∀ j, j < s.N → at1 (vec s.N (fun j => dot s.N (fun m => at2 s.inv m j) (at1 (vec s.N (fun j => e.f x (nth s.ys j) - e.f (nth s.xs ir) (nth s.ys j)))))) j
      = dot s.N (fun m => at2 s.inv m j) (U e.f (s.xs.set ir x) s.ys ir) - if j = ir then 1 else 0 := by
    intro j hj
    rw [at1_vec _ hj, ← hT.dot_eq hj hir, ← dot_sub]
    apply dot_congr (fun _ _ => rfl)
    intro l hl
    rw [at1_vec _ hl]
    unfold U
    rw [nth_set (by rw [G.lx]; exact hir), if_pos rfl]
  have hksi : 1 + at1 (vec s.N (fun j => dot s.N (fun m => at2 s.inv m j) (at1 (vec s.N (fun j => e.f x (nth s.ys j) - e.f (nth s.xs ir) (nth s.ys j)))))) ir
      = dot s.N (fun m => at2 s.inv m ir) (U e.f (s.xs.set ir x) s.ys ir) := by
    rw [hMC ir hir, if_pos rfl]; ring
  have hrows : ∀ l < s.N, ∀ j < s.N, l ≠ ir → U e.f (s.xs.set ir x) s.ys l j = U e.f s.xs s.ys l j := by
    intro l _ j _ hl
    unfold U
    rw [nth_set (by rw [G.lx]; exact hir), if_neg hl]
  rw [hksi] at hr hs
  have hd : dX e.f ((getX s).set i x) (getY s) = dX e.f (getX s) (getY s) * dot s.N (fun m => at2 s.inv m ir) (U e.f (s.xs.set ir x) s.ys ir) := by
    rw [← hX', hgx, hgy, dX_tables e.f G.row G.col, dX_tables e.f G.row G.col, detN_row G.inv hir hrows]
    ring
  have hGd := G.det
  generalize hξ : dot s.N (fun m => at2 s.inv m ir) (U e.f (s.xs.set ir x) s.ys ir) = ξ at hr hs hd
  subst hs
  refine ⟨?_, rfl, rfl, rfl, by simp, by simp [getX_length, getY_length], ?_, ?_, ?_⟩
  · exact G.of_core rfl rfl rfl rfl rfl rfl rfl rfl ⟨G.caps.k1, G.caps.w, G.caps.wk, G.caps.wk1⟩ G.nmax
  · rw [← hr, hd]; ring
  · intro s2 h2
    simp only [completeCase, completeChangeRow] at h2
    split_ifs at h2 with h0
    injection h2 with h2
    have gY : getY s2 = getY s := by rw [← h2]; rfl
    have gX : getX s2 = (getX s).set i x := by rw [← hX', ← h2]; exact getX_eq _ G.row.length
    refine ⟨⟨⟨?_, ?_, ?_, ?_, ?_, ?_, ?_⟩, ?_, ?_⟩, gX, gY⟩
    · rw [← h2]; simpa using G.lx
    · rw [← h2]; exact G.ly
    · rw [← h2]; exact G.row
    · rw [← h2]; exact G.col
    · rw [← h2]
      simp only
      apply G.inv.row hir hrows (by rw [hξ]; exact h0)
      intro l hl j hj
      rw [at2_mat _ hl hj, hξ]
      have hlen : (vec s.N (fun j => dot s.N (fun m => at2 s.inv m j) (at1 (vec s.N (fun j => e.f x (nth s.ys j) - e.f (nth s.xs ir) (nth s.ys j)))))).length = s.N := by
        simp [vec]
      have hset : at1 ((vec s.N (fun j => dot s.N (fun m => at2 s.inv m j) (at1 (vec s.N (fun j => e.f x (nth s.ys j) - e.f (nth s.xs ir) (nth s.ys j)))))).set ir 0) j
          = if j = ir then 0 else dot s.N (fun m => at2 s.inv m j) (U e.f (s.xs.set ir x) s.ys ir) := by
        rw [at1_set _ (by rw [hlen]; exact hir)]
        by_cases hij : j = ir
        · rw [if_pos hij, if_pos hij]
        · rw [if_neg hij, if_neg hij]
          have := hMC j hj
          rw [if_neg hij, sub_zero] at this
          exact this
      rw [hset]
      by_cases hij : j = ir
      · subst hij; simp; field_simp
      · simp only [if_neg hij]; field_simp; ring
    · rw [← h2]; exact ⟨G.caps.k1, G.caps.w, G.caps.wk, G.caps.wk1⟩
    · rw [← h2]; exact G.nmax
    · rw [← h2]; exact G.sgn
    · rw [gX, gY, hd, ← h2]
      simp only
      linear_combination ξ * hGd
  · intro hne
    simp only [completeCase, completeChangeRow]
    rw [if_neg]
    · exact ⟨_, rfl⟩
    · intro h0; exact hne (by rw [hd, h0, mul_zero])

theorem tryChangeColRow_outcome {e : Env X Y K} {s : State X Y K} (G : Good e s) {i j : Int} {x : X} {y : Y} {r : K} {s1 : State X Y K}
    (h : tryChangeColRow e s i j x y = .ok r s1) :
    (0 ≤ i ∧ i < s.N ∧ 0 ≤ j ∧ j < s.N) ∧ Outcome e s r s1 ((getX s).set i.toNat x) ((getY s).set j.toNat y) := by
  unfold tryChangeColRow at h
  split_ifs at h with h1 h2 h3 h4
  refine ⟨⟨h2.1, h2.2, h3.1, h3.2⟩, ?_⟩
  obtain ⟨i, rfl⟩ := Int.eq_ofNat_of_zero_le h2.1
  obtain ⟨j, rfl⟩ := Int.eq_ofNat_of_zero_le h3.1
  have hi : i < s.N := by have := h2.2; omega
  have hj : j < s.N := by have := h3.2; omega
  simp only [Int.toNat_natCast] at h ⊢
  injection h with hr hs
  have hgx := getX_eq s G.row.length
  have hgy := getY_eq s G.col.length
  have hir : s.row.getD i 0 < s.N := G.row.getD_lt hi
  have hjr : s.col.getD j 0 < s.N := G.col.getD_lt hj
  generalize hI : s.row.getD i 0 = ir at hr hs hir
  generalize hJ : s.col.getD j 0 = jr at hr hs hjr
  have hX' : s.row.map (nth (s.xs.set ir x)) = (getX s).set i x := by rw [hgx, ← hI]; exact map_set_perm G.row G.lx hi x
  have hY' : s.col.map (nth (s.ys.set jr y)) = (getY s).set j y := by rw [hgy, ← hJ]; exact map_set_perm G.col G.ly hj y
  -- the change of the matrix
  let u : Nat → K := fun p => if p = ir then e.f x y - e.f (nth s.xs ir) (nth s.ys jr) else e.f (nth s.xs p) y - e.f (nth s.xs p) (nth s.ys jr)
  let w : Nat → K := fun q => if q = jr then 0 else e.f x (nth s.ys q) - e.f (nth s.xs ir) (nth s.ys q)
  have hu : ∀ p < s.N, at1 (vec s.N u) p = u p := fun p hp => at1_vec _ hp
  have hw : ∀ p < s.N, at1 (vec s.N w) p = w p := fun p hp => at1_vec _ hp
  have hC : ∀ p < s.N, at1 (vec s.N (fun i => dot s.N (at2 s.inv i) (at1 (vec s.N u)))) p = dot s.N (at2 s.inv p) u := by
    intro p hp; rw [at1_vec _ hp]; exact dot_congr (fun _ _ => rfl) hu
  have hB : ∀ p < s.N, at1 (vec s.N (fun j => dot s.N (fun m => at2 s.inv m j) (at1 (vec s.N w)))) p = dot s.N w (fun m => at2 s.inv m p) := by
    intro p hp; rw [at1_vec _ hp, dot_comm]; exact dot_congr hw (fun _ _ => rfl)
  have hZ : dot s.N (at1 (vec s.N w)) (at1 (vec s.N (fun i => dot s.N (at2 s.inv i) (at1 (vec s.N u))))) = dot s.N w (fun p => dot s.N (at2 s.inv p) u) :=
    dot_congr hw hC
  have hg : ∀ p < s.N, ∀ q < s.N, U e.f (s.xs.set ir x) (s.ys.set jr y) p q =
      U e.f s.xs s.ys p q + (if q = jr then u p else 0) + (if p = ir then w q else 0) := by
    intro p hp q hq
    unfold U
    rw [nth_set (by rw [G.lx]; exact hir), nth_set (by rw [G.ly]; exact hjr)]
    simp only [u, w]
    by_cases hq' : q = jr <;> by_cases hp' : p = ir
    · subst hq'; subst hp'; simp
    · subst hq'; simp [hp']
    · subst hp'; simp [hq']
    · simp [hq', hp']
  change (1 + at1 (vec s.N (fun i => dot s.N (at2 s.inv i) (at1 (vec s.N u)))) jr) *
    (1 + at1 (vec s.N (fun j => dot s.N (fun m => at2 s.inv m j) (at1 (vec s.N w)))) ir) -
    at2 s.inv jr ir * dot s.N (at1 (vec s.N w)) (at1 (vec s.N (fun i => dot s.N (at2 s.inv i) (at1 (vec s.N u))))) = r at hr
  change { s with lastTry := .changeRowCol,
                   w1 := { s.w1 with i := i, j := j, ireal := ir, jreal := jr, x := x, y := y, MC := vec s.N u, MB := vec s.N w,
                                     B := vec s.N (fun j => dot s.N (fun m => at2 s.inv m j) (at1 (vec s.N w))),
                                     C := vec s.N (fun i => dot s.N (at2 s.inv i) (at1 (vec s.N u))),
                                     ksi := (1 + at1 (vec s.N (fun i => dot s.N (at2 s.inv i) (at1 (vec s.N u)))) jr) *
                                       (1 + at1 (vec s.N (fun j => dot s.N (fun m => at2 s.inv m j) (at1 (vec s.N w)))) ir) -
                                       at2 s.inv jr ir * dot s.N (at1 (vec s.N w)) (at1 (vec s.N (fun i => dot s.N (at2 s.inv i) (at1 (vec s.N u))))) },
                   newdet := s.det * ((1 + at1 (vec s.N (fun i => dot s.N (at2 s.inv i) (at1 (vec s.N u)))) jr) *
                                       (1 + at1 (vec s.N (fun j => dot s.N (fun m => at2 s.inv m j) (at1 (vec s.N w)))) ir) -
                                       at2 s.inv jr ir * dot s.N (at1 (vec s.N w)) (at1 (vec s.N (fun i => dot s.N (at2 s.inv i) (at1 (vec s.N u)))))),
                   newsign := s.sign } = s1 at hs
  have hform : (1 + at1 (vec s.N (fun i => dot s.N (at2 s.inv i) (at1 (vec s.N u)))) jr) *
    (1 + at1 (vec s.N (fun j => dot s.N (fun m => at2 s.inv m j) (at1 (vec s.N w)))) ir) -
    at2 s.inv jr ir * dot s.N (at1 (vec s.N w)) (at1 (vec s.N (fun i => dot s.N (at2 s.inv i) (at1 (vec s.N u))))) =
    (1 + dot s.N (at2 s.inv jr) u) * (1 + dot s.N w (fun m => at2 s.inv m ir)) - at2 s.inv jr ir * dot s.N w (fun p => dot s.N (at2 s.inv p) u) := by
    rw [hC jr hjr, hB ir hir, hZ]
  rw [hform] at hr hs
  have hd0 := detN_rowcol G.inv hir hjr u w _ hg
  generalize hξ : (1 + dot s.N (at2 s.inv jr) u) * (1 + dot s.N w (fun m => at2 s.inv m ir)) - at2 s.inv jr ir * dot s.N w (fun p => dot s.N (at2 s.inv p) u)
    = ξ at hr hs hd0
  have hd : dX e.f ((getX s).set i x) ((getY s).set j y) = dX e.f (getX s) (getY s) * ξ := by
    rw [← hX', ← hY', hgx, hgy, dX_tables e.f G.row G.col, dX_tables e.f G.row G.col, hd0]
    ring
  have hGd := G.det
  subst hs
  refine ⟨?_, rfl, rfl, rfl, by simp, by simp [getX_length, getY_length], ?_, ?_, ?_⟩
  · exact G.of_core rfl rfl rfl rfl rfl rfl rfl rfl ⟨G.caps.k1, G.caps.w, G.caps.wk, G.caps.wk1⟩ G.nmax
  · rw [← hr, hd]; ring
  · intro s2 h2
    simp only [completeCase, completeChangeColRow] at h2
    split_ifs at h2 with h0
    injection h2 with h2
    have gX : getX s2 = (getX s).set i x := by rw [← hX', ← h2]; exact getX_eq _ G.row.length
    have gY : getY s2 = (getY s).set j y := by rw [← hY', ← h2]; exact getY_eq _ G.col.length
    refine ⟨⟨⟨?_, ?_, ?_, ?_, ?_, ?_, ?_⟩, ?_, ?_⟩, gX, gY⟩
    · rw [← h2]; simpa using G.lx
    · rw [← h2]; simpa using G.ly
    · rw [← h2]; exact G.row
    · rw [← h2]; exact G.col
    · rw [← h2]
      simp only
      apply G.inv.rowcol hir hjr u w _ hg ξ hξ.symm h0
      intro p hp q hq
      rw [at2_mat _ hp hq, hC p hp, hB q hq, hB ir hir, hC jr hjr, hZ, at1_vec _ hq, at1_vec _ hp]
    · rw [← h2]; exact ⟨G.caps.k1, G.caps.w, G.caps.wk, G.caps.wk1⟩
    · rw [← h2]; exact G.nmax
    · rw [← h2]; exact G.sgn
    · rw [gX, gY, hd, ← h2]
      simp only
      linear_combination ξ * hGd
  · intro hne
    simp only [completeCase, completeChangeColRow]
    rw [if_neg]
    · exact ⟨_, rfl⟩
    · intro h0; exact hne (by rw [hd, h0, mul_zero])

/-! ## Refill -/

theorem detN_mat (n : Nat) (g : Nat → Nat → K) : detN n (at2 (mat n n g)) = detN n g :=
  detN_congr (fun _ hi _ hj => at2_mat g hi hj)

theorem isPerm_range (n : Nat) : IsPerm n (List.range n) := List.Perm.refl _

theorem tryRefill_outcome {e : Env X Y K} {s : State X Y K} (G : Good e s) {x : List X} {y : List Y} {r : K} {s1 : State X Y K}
    (h : tryRefill e s x y = .ok r s1) : Outcome e s r s1 x y := by
  unfold tryRefill at h
  split_ifs at h with h1 h2 h3
  · injection h with hr hs
    have hy : y = [] := List.length_eq_zero_iff.mp (by omega)
    have hx : x = [] := List.length_eq_zero_iff.mp h3
    subst hx; subst hy; subst hs
    have hne := G.d_ne
    rw [← G.det] at hne
    refine ⟨?_, rfl, rfl, rfl, by simp, rfl, ?_, ?_, ?_⟩
    · exact G.of_core rfl rfl rfl rfl rfl rfl rfl rfl ⟨G.caps.k1, G.caps.w, G.caps.wk, G.caps.wk1⟩ G.nmax
    · rw [← hr, dX_nil, ← G.det]; exact div_mul_cancel₀ _ hne
    · intro s2 h2
      simp only [completeCase, completeRefill, List.length_nil, if_true] at h2
      injection h2 with h2
      subst h2
      refine ⟨⟨⟨rfl, rfl, List.Perm.refl _, List.Perm.refl _, ?_, ⟨G.caps.k1, G.caps.w, G.caps.wk, G.caps.wk1⟩, Nat.zero_le _⟩, Or.inl rfl, ?_⟩, rfl, rfl⟩
      · unfold IsInv; ext i; exact i.elim0
      · simp [clear, getX, getY, dX_nil]
    · intro _
      simp only [completeCase, completeRefill, List.length_nil, if_true]
      exact ⟨_, rfl⟩
  · simp only [Decidable.not_not] at h2
    injection h with hr hs
    rw [detN_mat] at hr
    have hd : detN x.length (fun i j => e.f (nth x i) (nth y j)) = dX e.f x y := rfl
    rw [hd] at hr
    have hne := G.d_ne
    rw [← G.det] at hne
    subst hs
    refine ⟨?_, rfl, rfl, rfl, by simp, h2, ?_, ?_, ?_⟩
    · exact G.of_core rfl rfl rfl rfl rfl rfl rfl rfl ⟨G.caps.k1, G.caps.w, G.caps.wk, G.caps.wk1⟩ G.nmax
    · rw [← hr, ← G.det]; exact div_mul_cancel₀ _ hne
    · intro s2 h2'
      simp only [completeCase, completeRefill, if_neg h3] at h2'
      split_ifs at h2' with h0
      injection h2' with h2'
      rw [detN_mat] at h0
      have hcaps := reserve_caps (K := K) { s with lastTry := .refill, N := x.length, wr := ⟨x, y, mat x.length x.length (fun i j => e.f (nth x i) (nth y j))⟩, newdet := detN x.length (at2 (mat x.length x.length (fun i j => e.f (nth x i) (nth y j)))), newsign := 1 } (x.length : Int) 1
        ⟨G.caps.k1, G.caps.w, G.caps.wk, G.caps.wk1⟩
      obtain ⟨a, b, c, d, g, hres⟩ := reserve_eq (K := K) { s with lastTry := .refill, N := x.length, wr := ⟨x, y, mat x.length x.length (fun i j => e.f (nth x i) (nth y j))⟩, newdet := detN x.length (at2 (mat x.length x.length (fun i j => e.f (nth x i) (nth y j)))), newsign := 1 } (x.length : Int) 1
      rw [hres] at h2' hcaps
      obtain ⟨hc, hn, -, -⟩ := hcaps
      simp only at hn
      have gX : getX s2 = x := by
        rw [← h2']
        refine Eq.trans (getX_eq _ (by simp)) ?_
        exact map_nth_range x
      have gY : getY s2 = y := by
        rw [← h2']
        refine Eq.trans (getY_eq _ (by simp)) ?_
        simp only
        rw [h2]
        exact map_nth_range y
      refine ⟨⟨⟨?_, ?_, ?_, ?_, ?_, ?_, ?_⟩, ?_, ?_⟩, gX, gY⟩
      · rw [← h2']
      · rw [← h2']; exact h2.symm
      · rw [← h2']
      · rw [← h2']
      · rw [← h2']
        simp only
        have := invN_isInv (n := x.length) (at2 (mat x.length x.length (fun i j => e.f (nth x i) (nth y j)))) (by rw [detN_mat]; exact h0)
        exact this.congr (fun _ _ _ _ => rfl) (fun i hi j hj => at2_mat _ hi hj)
      · rw [← h2']; exact ⟨hc.k1, hc.w, hc.wk, hc.wk1⟩
      · rw [← h2']; simp only; omega
      · rw [← h2']; exact Or.inl rfl
      · rw [gX, gY, ← h2']; simp only; rw [detN_mat, hd]; simp
    · intro hne'
      simp only [completeCase, completeRefill, if_neg h3]
      rw [if_neg]
      · exact ⟨_, rfl⟩
      · rw [detN_mat]; exact hne'

/-! ## Exchanges and rotations -/

theorem swapAt_spec {α : Type} [Inhabited α] (d : α) (l : List α) {i j : Nat} (hi : i < l.length) (hj : j < l.length) :
    (swapAt d l i j).length = l.length ∧ ∀ p, nth (swapAt d l i j) p = nth l (if p = i then j else if p = j then i else p) := by
  unfold swapAt
  refine ⟨by simp, fun p => ?_⟩
  rw [nth_set (by simpa using hj), nth_set hi]
  have e1 : l.getD i d = nth l i := by rw [nth_eq_getElem hi, List.getD_eq_getElem _ _ hi]
  have e2 : l.getD j d = nth l j := by rw [nth_eq_getElem hj, List.getD_eq_getElem _ _ hj]
  rw [e1, e2]
  by_cases hp : p = j
  · subst hp
    by_cases hpi : p = i
    · subst hpi; simp
    · simp [hpi]
  · rw [if_neg hp]
    by_cases hpi : p = i
    · subst hpi; simp
    · simp [hpi, hp]

theorem swapAt_perm {n : Nat} {r : List Nat} (h : IsPerm n r) {i j : Nat} (hi : i < n) (hj : j < n) : IsPerm n (swapAt 0 r i j) := by
  obtain ⟨h1, h2⟩ := swapAt_spec 0 r (i := i) (j := j) (by rw [h.length]; exact hi) (by rw [h.length]; exact hj)
  have hl := h.length
  apply List.Perm.trans _ h
  rw [List.perm_ext_iff_of_nodup]
  · intro a
    constructor
    · intro ha
      obtain ⟨p, hp, rfl⟩ := List.mem_iff_getElem.mp ha
      rw [← nth_eq_getElem hp, h2]
      apply getD_mem (i := if p = i then j else if p = j then i else p)
      rw [h1] at hp
      split_ifs <;> omega
    · intro ha
      obtain ⟨p, hp, rfl⟩ := List.mem_iff_getElem.mp ha
      have hq : (if p = i then j else if p = j then i else p) < (swapAt 0 r i j).length := by rw [h1]; split_ifs <;> omega
      have := h2 (if p = i then j else if p = j then i else p)
      have hback : nth r (if (if p = i then j else if p = j then i else p) = i then j else if (if p = i then j else if p = j then i else p) = j then i
          else (if p = i then j else if p = j then i else p)) = r[p] := by
        rw [← nth_eq_getElem hp]; congr 1; split_ifs <;> omega
      rw [hback, nth_eq_getElem hq] at this
      rw [← this]
      exact List.getElem_mem hq
  · rw [List.nodup_iff_injective_getElem]
    intro a b hab
    simp only at hab
    rw [← nth_eq_getElem a.2, ← nth_eq_getElem b.2, h2, h2] at hab
    have ha : (a : Nat) < r.length := lt_of_lt_of_eq a.2 h1
    have hb : (b : Nat) < r.length := lt_of_lt_of_eq b.2 h1
    have := h.inj (i := if (a : Nat) = i then j else if (a : Nat) = j then i else a) (j := if (b : Nat) = i then j else if (b : Nat) = j then i else b)
      (by split_ifs <;> omega) (by split_ifs <;> omega) hab
    apply Fin.ext
    split_ifs at this <;> omega
  · exact h.nodup

theorem swapRow_good {e : Env X Y K} {s : State X Y K} (G : Good e s) {i j : Nat} {s1 : State X Y K} {u : Unit}
    (h : swapRow s i j = .ok u s1) (hij : i ≠ j) : i < s.N ∧ j < s.N ∧ Good e s1 ∧ getX s1 = swapAt default (getX s) i j ∧ getY s1 = getY s := by
  unfold swapRow at h
  rw [if_neg (by omega)] at h
  split_ifs at h with hb
  injection h with _ h
  have hi : i < s.N := by omega
  have hj : j < s.N := by omega
  simp only [Int.toNat_natCast] at h
  have hp := swapAt_perm G.row hi hj
  obtain ⟨l1, l2⟩ := swapAt_spec 0 s.row (i := i) (j := j) (by rw [G.row.length]; exact hi) (by rw [G.row.length]; exact hj)
  have hrl := G.row.length
  have gX : getX s1 = swapAt default (getX s) i j := by
    rw [← h]
    refine Eq.trans (getX_eq _ hp.length) ?_
    change (swapAt 0 s.row i j).map (nth s.xs) = _
    obtain ⟨m1, m2⟩ := swapAt_spec default (getX s) (i := i) (j := j) (by rw [getX_length]; exact hi) (by rw [getX_length]; exact hj)
    apply ext_nth
    · simp [l1, m1, getX_length, hrl]
    · intro p hp
      have hp' : p < s.N := by simpa [l1, hrl] using hp
      rw [nth_map _ (by omega), m2, getX_eq s hrl, nth_map _ (by split_ifs <;> omega)]
      have := l2 p
      unfold nth at this
      simp only [Nat.default_eq_zero] at this
      rw [this]
  have gY : getY s1 = getY s := by rw [← h]; rfl
  refine ⟨hi, hj, ⟨⟨?_, ?_, ?_, ?_, ?_, ?_, ?_⟩, ?_, ?_⟩, gX, gY⟩
  · rw [← h]; exact G.lx
  · rw [← h]; exact G.ly
  · rw [← h]; exact hp
  · rw [← h]; exact G.col
  · rw [← h]; exact G.inv
  · rw [← h]; exact ⟨G.caps.k1, G.caps.w, G.caps.wk, G.caps.wk1⟩
  · rw [← h]; exact G.nmax
  · rw [← h]; simp only; have := G.sgn; omega
  · have hx1 : getX s1 = (swapAt 0 s.row i j).map (nth s.xs) := by rw [← h]; exact getX_eq _ hp.length
    rw [hx1, gY, getY_eq s G.col.length, ← detO_U e.f s.xs s.ys hp.length G.col.length,
      detO_swap_rows _ s.row _ _ hi hj hij (fun p _ => l2 p), detO_U e.f s.xs s.ys G.row.length G.col.length, ← getX_eq s hrl,
      ← getY_eq s G.col.length, ← G.det, ← h]
    simp

theorem swapCol_good {e : Env X Y K} {s : State X Y K} (G : Good e s) {i j : Nat} {s1 : State X Y K} {u : Unit}
    (h : swapCol s i j = .ok u s1) (hij : i ≠ j) : i < s.N ∧ j < s.N ∧ Good e s1 ∧ getX s1 = getX s ∧ getY s1 = swapAt default (getY s) i j := by
  unfold swapCol at h
  rw [if_neg (by omega)] at h
  split_ifs at h with hb
  injection h with _ h
  have hi : i < s.N := by omega
  have hj : j < s.N := by omega
  simp only [Int.toNat_natCast] at h
  have hp := swapAt_perm G.col hi hj
  obtain ⟨l1, l2⟩ := swapAt_spec 0 s.col (i := i) (j := j) (by rw [G.col.length]; exact hi) (by rw [G.col.length]; exact hj)
  have hcl := G.col.length
  have gY : getY s1 = swapAt default (getY s) i j := by
    rw [← h]
    refine Eq.trans (getY_eq _ hp.length) ?_
    change (swapAt 0 s.col i j).map (nth s.ys) = _
    obtain ⟨m1, m2⟩ := swapAt_spec default (getY s) (i := i) (j := j) (by rw [getY_length]; exact hi) (by rw [getY_length]; exact hj)
    apply ext_nth
    · simp [l1, m1, getY_length, hcl]
    · intro p hp
      have hp' : p < s.N := by simpa [l1, hcl] using hp
      rw [nth_map _ (by omega), m2, getY_eq s hcl, nth_map _ (by split_ifs <;> omega)]
      have := l2 p
      unfold nth at this
      simp only [Nat.default_eq_zero] at this
      rw [this]
  have gX : getX s1 = getX s := by rw [← h]; rfl
  refine ⟨hi, hj, ⟨⟨?_, ?_, ?_, ?_, ?_, ?_, ?_⟩, ?_, ?_⟩, gX, gY⟩
  · rw [← h]; exact G.lx
  · rw [← h]; exact G.ly
  · rw [← h]; exact G.row
  · rw [← h]; exact hp
  · rw [← h]; exact G.inv
  · rw [← h]; exact ⟨G.caps.k1, G.caps.w, G.caps.wk, G.caps.wk1⟩
  · rw [← h]; exact G.nmax
  · rw [← h]; simp only; have := G.sgn; omega
  · have hy1 : getY s1 = (swapAt 0 s.col i j).map (nth s.ys) := by rw [← h]; exact getY_eq _ hp.length
    rw [gX, hy1, getX_eq s G.row.length, ← detO_U e.f s.xs s.ys G.row.length hp.length, detO_transpose,
      detO_swap_rows _ s.col _ _ hi hj hij (fun p _ => l2 p), ← detO_transpose, detO_U e.f s.xs s.ys G.row.length G.col.length, ← getX_eq s G.row.length,
      ← getY_eq s hcl, ← G.det, ← h]
    simp

/-- tables after a rotation -/
theorem shiftUp_rotate {n : Nat} {r : List Nat} (hr : r.length = n) (hn : n ≠ 0) :
    (shiftUp r n 0).set 0 (r.getD (n - 1) 0) = r.rotate (n - 1) := by
  subst hr
  obtain ⟨h1, h2⟩ := shiftUp_spec r r.length 0 (by omega) (by omega) (by omega)
  generalize hn' : r.length = n at *
  apply ext_getD
  · simp [h1, hn']
  · intro i hi
    have hi' : i < n := by simpa [h1, hn'] using hi
    have hrot : (r.rotate (n - 1)).getD i 0 = r.getD ((i + (n - 1)) % n) 0 := by
      rw [List.getD_eq_getElem (r.rotate (n - 1)) _ (by simpa [hn'] using hi'), List.getElem_rotate,
        List.getD_eq_getElem _ _ (by rw [hn']; exact Nat.mod_lt _ (by omega))]
      simp only [hn']
    rw [getD_set (by omega), h2, hrot]
    by_cases h0 : i = 0
    · subst h0
      rw [if_pos rfl]
      congr 1
      rw [Nat.zero_add, Nat.mod_eq_of_lt (by omega)]
    · rw [if_neg h0, if_pos (by omega)]
      congr 1
      rw [show i + (n - 1) = (i - 1) + n by omega, Nat.add_mod_right, Nat.mod_eq_of_lt (by omega)]

theorem shiftDown_rotate {n : Nat} {r : List Nat} (hr : r.length = n) (hn : n ≠ 0) :
    (shiftDown r n).set (n - 1) (r.getD 0 0) = r.rotate 1 := by
  subst hr
  obtain ⟨h1, h2⟩ := shiftDown_spec r r.length (by omega)
  generalize hn' : r.length = n at *
  apply ext_getD
  · simp [h1, hn']
  · intro i hi
    have hi' : i < n := by simpa [h1, hn'] using hi
    have hrot : (r.rotate 1).getD i 0 = r.getD ((i + 1) % n) 0 := by
      rw [List.getD_eq_getElem (r.rotate 1) _ (by simpa [hn'] using hi'), List.getElem_rotate,
        List.getD_eq_getElem _ _ (by rw [hn']; exact Nat.mod_lt _ (by omega))]
      simp only [hn']
    rw [getD_set (by omega), h2, hrot]
    by_cases h0 : i = n - 1
    · subst h0
      rw [if_pos rfl]
      congr 1
      rw [show n - 1 + 1 = n by omega, Nat.mod_self]
    · rw [if_neg h0, if_pos (by omega)]
      congr 1
      rw [Nat.mod_eq_of_lt (by omega)]

theorem detO_rotate_one {n : Nat} (g : Nat → Nat → K) {r c : List Nat} (hr : r.length = n) :
    detO n g (r.rotate 1) c = (-1) ^ (n - 1) * detO n g r c := by
  cases r with
  | nil => simp at hr; subst hr; simp [detO]
  | cons x b =>
    have h := detO_move_row (n := n) g c x b [] [] (by simpa using hr)
    simp only [List.nil_append, List.append_nil] at h
    rw [List.rotate_cons_succ, List.rotate_zero, h, ← mul_assoc, ← pow_add]
    have : Even (n - 1 + b.length) := by simp at hr; subst hr; simp
    rw [this.neg_one_pow, one_mul]

theorem detO_rotate_last {n : Nat} (g : Nat → Nat → K) {r c : List Nat} (hr : r.length = n) (hn : n ≠ 0) :
    detO n g (r.rotate (n - 1)) c = (-1) ^ (n - 1) * detO n g r c := by
  have h := detO_rotate_one g (r := r.rotate (n - 1)) (c := c) (n := n) (by simp [hr])
  rw [List.rotate_rotate, show n - 1 + 1 = r.length by omega, List.rotate_length] at h
  rw [h, ← mul_assoc, ← pow_add, Even.neg_one_pow (by simp), one_mul]

/-- user view of a rotation -/
def Roll.onX {α : Type} : Roll → List α → List α
  | .up, l => l.rotate 1
  | .down, l => l.rotate (l.length - 1)
  | _, l => l

def Roll.onY {α : Type} : Roll → List α → List α
  | .left, l => l.rotate 1
  | .right, l => l.rotate (l.length - 1)
  | _, l => l

theorem rollMatrix_good {e : Env X Y K} {s : State X Y K} (G : Good e s) {d : Roll} {v : Int} {s1 : State X Y K} (h : rollMatrix s d = .ok v s1) :
    Good e s1 ∧ getX s1 = d.onX (getX s) ∧ getY s1 = d.onY (getY s) ∧ s1.lastTry = s.lastTry ∧
      dX e.f (getX s1) (getY s1) = (v : K) * dX e.f (getX s) (getY s) := by
  have hrl := G.row.length
  have hcl := G.col.length
  have hgx := getX_eq s hrl
  have hgy := getY_eq s hcl
  -- common part
  have main : ∀ (row' col' : List Nat), row'.Perm s.row → col'.Perm s.col → s.N ≠ 0 →
      detO s.N (U e.f s.xs s.ys) row' col' = (-1) ^ (s.N - 1) * detO s.N (U e.f s.xs s.ys) s.row s.col →
      (if (s.N - 1) % 2 = 1 then Res.ok (-1) { s with row := row', col := col', sign := s.sign * -1 } else
        Res.ok 1 { s with row := row', col := col' }) = Res.ok v s1 →
      Good e s1 ∧ getX s1 = row'.map (nth s.xs) ∧ getY s1 = col'.map (nth s.ys) ∧ s1.lastTry = s.lastTry ∧
        dX e.f (getX s1) (getY s1) = (v : K) * dX e.f (getX s) (getY s) := by
    intro row' col' hpr hpc hN hdet h
    have pr : IsPerm s.N row' := hpr.trans G.row
    have pc : IsPerm s.N col' := hpc.trans G.col
    rw [detO_U e.f _ _ pr.length pc.length, detO_U e.f _ _ hrl hcl, ← hgx, ← hgy] at hdet
    split_ifs at h with hodd
    · injection h with hv h
      have gX : getX s1 = row'.map (nth s.xs) := by rw [← h]; exact getX_eq _ pr.length
      have gY : getY s1 = col'.map (nth s.ys) := by rw [← h]; exact getY_eq _ pc.length
      have hpow : (-1 : K) ^ (s.N - 1) = -1 := Odd.neg_one_pow (by rw [Nat.odd_iff]; exact hodd)
      rw [hpow] at hdet
      refine ⟨⟨⟨?_, ?_, ?_, ?_, ?_, ?_, ?_⟩, ?_, ?_⟩, gX, gY, by rw [← h], ?_⟩
      · rw [← h]; exact G.lx
      · rw [← h]; exact G.ly
      · rw [← h]; exact pr
      · rw [← h]; exact pc
      · rw [← h]; exact G.inv
      · rw [← h]; exact ⟨G.caps.k1, G.caps.w, G.caps.wk, G.caps.wk1⟩
      · rw [← h]; exact G.nmax
      · rw [← h]; simp only; have := G.sgn; omega
      · rw [gX, gY, hdet, ← G.det, ← h]; simp
      · rw [gX, gY, hdet, ← hv]; simp
    · injection h with hv h
      have gX : getX s1 = row'.map (nth s.xs) := by rw [← h]; exact getX_eq _ pr.length
      have gY : getY s1 = col'.map (nth s.ys) := by rw [← h]; exact getY_eq _ pc.length
      have hpow : (-1 : K) ^ (s.N - 1) = 1 := Even.neg_one_pow (by rw [Nat.even_iff]; omega)
      rw [hpow, one_mul] at hdet
      refine ⟨⟨⟨?_, ?_, ?_, ?_, ?_, ?_, ?_⟩, ?_, ?_⟩, gX, gY, by rw [← h], ?_⟩
      · rw [← h]; exact G.lx
      · rw [← h]; exact G.ly
      · rw [← h]; exact pr
      · rw [← h]; exact pc
      · rw [← h]; exact G.inv
      · rw [← h]; exact ⟨G.caps.k1, G.caps.w, G.caps.wk, G.caps.wk1⟩
      · rw [← h]; exact G.nmax
      · rw [← h]; exact G.sgn
      · rw [gX, gY, hdet, ← G.det, ← h]
      · rw [gX, gY, hdet, ← hv]; simp
  have mapr : ∀ k, (s.row.rotate k).map (nth s.xs) = (getX s).rotate k := by intro k; rw [hgx, List.map_rotate]
  have mapc : ∀ k, (s.col.rotate k).map (nth s.ys) = (getY s).rotate k := by intro k; rw [hgy, List.map_rotate]
  cases d with
  | none =>
    injection h with hv h
    subst h; subst hv
    exact ⟨G, rfl, rfl, rfl, by simp⟩
  | up =>
    unfold rollMatrix at h
    simp only at h
    by_cases h1 : s.N = 0
    · rw [if_pos h1] at h; cases h
    · rw [if_neg h1, shiftDown_rotate hrl h1] at h
      have := main (s.row.rotate 1) s.col (List.rotate_perm _ _) (List.Perm.refl _) h1 (detO_rotate_one _ hrl) h
      rw [mapr, ← hgy] at this
      exact this
  | down =>
    unfold rollMatrix at h
    simp only at h
    by_cases h1 : s.N = 0
    · rw [if_pos h1] at h; cases h
    · rw [if_neg h1, shiftUp_rotate hrl h1] at h
      have := main (s.row.rotate (s.N - 1)) s.col (List.rotate_perm _ _) (List.Perm.refl _) h1 (detO_rotate_last _ hrl h1) h
      rw [mapr, ← hgy] at this
      have hl := getX_length s
      simp only [Roll.onX, Roll.onY, hl]
      exact this
  | left =>
    unfold rollMatrix at h
    simp only at h
    by_cases h1 : s.N = 0
    · rw [if_pos h1] at h; cases h
    · rw [if_neg h1, shiftDown_rotate hcl h1] at h
      have := main s.row (s.col.rotate 1) (List.Perm.refl _) (List.rotate_perm _ _) h1
        (by rw [detO_transpose, detO_rotate_one _ hcl, ← detO_transpose]) h
      rw [mapc, ← hgx] at this
      exact this
  | right =>
    unfold rollMatrix at h
    simp only at h
    by_cases h1 : s.N = 0
    · rw [if_pos h1] at h; cases h
    · rw [if_neg h1, shiftUp_rotate hcl h1] at h
      have := main s.row (s.col.rotate (s.N - 1)) (List.Perm.refl _) (List.rotate_perm _ _) h1
        (by rw [detO_transpose, detO_rotate_last _ hcl h1, ← detO_transpose]) h
      rw [mapc, ← hgx] at this
      have hl := getY_length s
      simp only [Roll.onX, Roll.onY, hl]
      exact this

/-! ## Regeneration -/

/-- regeneration restores the invariant from the arguments and tables alone -/
theorem regenerateWithCheck_good {e : Env X Y K} {s : State X Y K} (M : Mid e s) {b : Bool} {u : Unit} {s1 : State X Y K}
    (h : regenerateWithCheck e s b = .ok u s1) : Good e s1 ∧ getX s1 = getX s ∧ getY s1 = getY s ∧ s1.lastTry = s.lastTry := by
  unfold regenerateWithCheck at h
  by_cases hN : s.N = 0
  · rw [if_pos hN] at h
    injection h with _ h
    subst h
    refine ⟨⟨⟨M.lx, M.ly, M.row, M.col, M.inv, ⟨M.caps.k1, M.caps.w, M.caps.wk, M.caps.wk1⟩, M.nmax⟩, Or.inl rfl, ?_⟩, rfl, rfl, rfl⟩
    have hX0 : getX s = [] := List.length_eq_zero_iff.mp (by rw [getX_length, hN])
    have hY0 : getY s = [] := List.length_eq_zero_iff.mp (by rw [getY_length, hN])
    change ((1 : Int) : K) * 1 = dX e.f (getX s) (getY s)
    rw [hX0, hY0, dX_nil]; simp
  · rw [if_neg hN] at h
    simp only at h
    split_ifs at h with h1 h2 h3 h4
    all_goals
      injection h with _ h
      have hI := invN_isInv (n := s.N) (fun i j => e.f (nth s.xs i) (nth s.ys j)) h2
      subst h
      refine ⟨⟨⟨M.lx, M.ly, M.row, M.col, hI, ⟨M.caps.k1, M.caps.w, M.caps.wk, M.caps.wk1⟩, M.nmax⟩, ?_, ?_⟩, rfl, rfl, rfl⟩
      · simp
      · change (_ : K) = dX e.f (getX s) (getY s)
        rw [M.dX_perm]
        change (_ : K) = _ * detN s.N (fun i j => e.f (nth s.xs i) (nth s.ys j))
        have h1 := permDet_sign M.row
        have h2 := permDet_sign M.col
        rcases h1 with h1 | h1 <;> rcases h2 with h2 | h2 <;> rw [h1, h2] at h4 ⊢ <;> first | (exact absurd h4 (by decide)) | simp

end

end Verif.DetManip
