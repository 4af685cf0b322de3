import Verif.DetManip.InsertK

/-!
# det_manip: removal
-/

namespace Verif.DetManip

open Matrix

set_option linter.unusedSectionVars false

/-! ## the permutation of internal numbers made by the exchanges -/

/-- successive exchanges of `a` with `t`, `a'` with `t - 1`, ... -/
def sig : List Nat → Nat → Nat → Nat
  | [], _, p => p
  | a :: as, t, p => sig as (t - 1) (sw a t p)

def sigI : List Nat → Nat → Nat → Nat
  | [], _, p => p
  | a :: as, t, p => sw a t (sigI as (t - 1) p)

theorem sw_self (a i : Nat) : sw a a i = i := by unfold sw; split_ifs <;> omega

theorem sigI_sig : ∀ (as : List Nat) (t p : Nat), sigI as t (sig as t p) = p := by
  intro as
  induction as with
  | nil => intro t p; rfl
  | cons a as ih => intro t p; simp only [sig, sigI]; rw [ih, sw_sw]

theorem sig_sigI : ∀ (as : List Nat) (t p : Nat), sig as t (sigI as t p) = p := by
  intro as
  induction as with
  | nil => intro t p; rfl
  | cons a as ih => intro t p; simp only [sig, sigI]; rw [sw_sw, ih]

/-- decreasing positions, all at most `t` -/
def Dec (as : List Nat) (t : Nat) : Prop := as.Pairwise (· > ·) ∧ ∀ a ∈ as, a ≤ t

theorem Dec.tail {a : Nat} {as : List Nat} {t : Nat} (h : Dec (a :: as) t) : Dec as (t - 1) := by
  refine ⟨(List.pairwise_cons.mp h.1).2, ?_⟩
  intro p hp
  have h1 := (List.pairwise_cons.mp h.1).1 p hp
  have h2 := h.2 a (by simp)
  omega

theorem Dec.head {a : Nat} {as : List Nat} {t : Nat} (h : Dec (a :: as) t) : a ≤ t := h.2 a (by simp)

theorem Dec.len : ∀ {as : List Nat} {t : Nat}, Dec as t → as.length ≤ t + 1 := by
  intro as
  induction as with
  | nil => intro t _; simp
  | cons a as ih =>
    intro t h
    cases as with
    | nil => simp
    | cons b as =>
      have h1 := ih h.tail
      have h2 := h.head
      have h3 := (List.pairwise_cons.mp h.1).1 b (by simp)
      simp only [List.length_cons] at *
      omega

theorem sig_fix : ∀ (as : List Nat) (t p : Nat), Dec as t → t < p → sig as t p = p := by
  intro as
  induction as with
  | nil => intro t p _ _; rfl
  | cons a as ih =>
    intro t p h hp
    have ha := h.head
    simp only [sig]
    have : sw a t p = p := by unfold sw; split_ifs <;> omega
    rw [this]
    exact ih _ _ h.tail (by omega)

theorem sig_le : ∀ (as : List Nat) (t p : Nat), Dec as t → p ≤ t → sig as t p ≤ t := by
  intro as
  induction as with
  | nil => intro t p _ hp; exact hp
  | cons a as ih =>
    intro t p h hp
    have ha := h.head
    simp only [sig]
    have h1 : sw a t p ≤ t := by unfold sw; split_ifs <;> omega
    by_cases h2 : sw a t p ≤ t - 1
    · have := ih _ _ h.tail h2; omega
    · rw [sig_fix _ _ _ h.tail (by omega)]; exact h1

theorem sigI_le : ∀ (as : List Nat) (t p : Nat), Dec as t → p ≤ t → sigI as t p ≤ t := by
  intro as t p h hp
  by_contra hc
  have := sig_fix as t (sigI as t p) h (by omega)
  rw [sig_sigI] at this
  omega

/-- the listed numbers go to the end -/
theorem sig_mem : ∀ (as : List Nat) (t p : Nat), Dec as t → p ∈ as → t + 1 ≤ sig as t p + as.length ∧ sig as t p ≤ t := by
  intro as
  induction as with
  | nil => intro t p _ hp; simp at hp
  | cons a as ih =>
    intro t p h hp
    refine ⟨?_, sig_le _ _ _ h (h.2 p hp)⟩
    have ha := h.head
    simp only [sig, List.length_cons]
    rcases List.mem_cons.mp hp with rfl | hp
    · have : sw p t p = t := by unfold sw; simp
      rw [this]
      by_cases ht : t = 0
      · omega
      · rw [sig_fix _ _ _ h.tail (by omega)]; omega
    · have h1 := (List.pairwise_cons.mp h.1).1 p hp
      have : sw a t p = p := by unfold sw; split_ifs <;> omega
      rw [this]
      have := (ih _ _ h.tail hp).1
      omega

/-- and the others to the front -/
theorem sig_not_mem : ∀ (as : List Nat) (t p : Nat), Dec as t → p ∉ as → p ≤ t → sig as t p + as.length ≤ t := by
  intro as
  induction as with
  | nil => intro t p _ _ hp; simpa [sig] using hp
  | cons a as ih =>
    intro t p h hp hpt
    have ha := h.head
    rw [List.mem_cons, not_or] at hp
    simp only [sig, List.length_cons]
    by_cases ht : p = t
    · have : sw a t p = a := by unfold sw; split_ifs <;> omega
      rw [this]
      have := ih _ a h.tail (fun hm => by have := (List.pairwise_cons.mp h.1).1 a hm; omega) (by omega)
      omega
    · have : sw a t p = p := by unfold sw; split_ifs <;> omega
      rw [this]
      have := ih _ p h.tail hp.2 (by omega)
      omega

section lists
variable {α : Type} [Inhabited α]

theorem removeAt_eq_filter (I : List Nat) {r : List Nat} (hn : r.Nodup) (hb : ∀ i ∈ I, i < r.length) :
    removeAt I r = r.filter (fun a => a ∉ select I r) := by
  have h1 : r.filter (fun a => decide (a ∉ select I r)) = ((List.range r.length).filter (fun p => decide (p ∉ I))).map (fun p => nth r p) := by
    conv_lhs => rw [← map_nth_range r]
    rw [List.filter_map]
    congr 1
    apply List.filter_congr
    intro p hp
    simp only [Function.comp, decide_eq_decide, not_iff_not]
    rw [map_nth_range r]
    unfold select
    rw [List.mem_map]
    have hp' : p < r.length := by simpa using hp
    constructor
    · rintro ⟨q, hq, he⟩
      have hq' := hb q hq
      rw [nth_eq_getElem hq', nth_eq_getElem hp'] at he
      have := (List.Nodup.getElem_inj_iff hn).mp he
      rw [← this]; exact hq
    · intro hq; exact ⟨p, hq, rfl⟩
  rw [h1]
  unfold removeAt
  rw [← List.filterMap_eq_map, List.filterMap_filter]
  apply List.filterMap_congr
  intro p hp
  have hp' : p < r.length := by simpa using hp
  by_cases hm : p ∈ I
  · simp [hm]
  · simp [hm, nth_eq_getElem hp', hp']

theorem nth_take {l : List α} {n p : Nat} (h : p < n) : nth (l.take n) p = nth l p := by
  unfold nth
  rw [List.getD_eq_getElem?_getD, List.getElem?_take_of_lt h]; rfl

end lists

section
variable {X Y K : Type} [Inhabited X] [Inhabited Y] [Field K] [DecidableEq K]

/-- result of the exchanges -/
theorem moveAll_spec : ∀ (as bs : List Nat) (t : Nat) (s : State X Y K), as.length = bs.length → Dec as t → Dec bs t → t < s.N →
    IsPerm s.N s.row → IsPerm s.N s.col → s.xs.length = s.N → s.ys.length = s.N →
    ∃ inv xs ys row col, moveAll as bs t s = { s with inv := inv, xs := xs, ys := ys, row := row, col := col } ∧
      row = s.row.map (sig as t) ∧ col = s.col.map (sig bs t) ∧ xs.length = s.N ∧ ys.length = s.N ∧
      (∀ i < s.N, ∀ j < s.N, at2 inv i j = at2 s.inv (sigI bs t i) (sigI as t j)) ∧
      (∀ p, p + as.length ≤ t → nth xs p = nth s.xs (sigI as t p)) ∧ (∀ p, p + as.length ≤ t → nth ys p = nth s.ys (sigI bs t p)) := by
  intro as
  induction as with
  | nil =>
    intro bs t s hl _ _ _ _ _ hx hy
    have : bs = [] := List.length_eq_zero_iff.mp (by simpa using hl.symm)
    subst this
    refine ⟨s.inv, s.xs, s.ys, s.row, s.col, rfl, ?_, ?_, hx, hy, fun _ _ _ _ => rfl, fun _ _ => rfl, fun _ _ => rfl⟩
    · exact (List.map_id s.row).symm
    · exact (List.map_id s.col).symm
  | cons a as ih =>
    intro bs t s hl ha hb ht hr hc hx hy
    cases bs with
    | nil => simp at hl
    | cons b bs =>
      have hat := ha.head
      have hbt := hb.head
      -- one exchange
      have e1 : ∃ inv xs ys row col, moveCol (moveRow s a t) b t = { s with inv := inv, xs := xs, ys := ys, row := row, col := col } ∧
          row = s.row.map (sw a t) ∧ col = s.col.map (sw b t) ∧ xs.length = s.N ∧ ys.length = s.N ∧
          (∀ i < s.N, ∀ j < s.N, at2 inv i j = at2 s.inv (sw b t i) (sw a t j)) ∧
          (∀ p < t, nth xs p = nth s.xs (sw a t p)) ∧ (∀ p < t, nth ys p = nth s.ys (sw b t p)) := by
        have mx : ∀ p < t, a ≠ t → nth (s.xs.set a (nth s.xs t)) p = nth s.xs (sw a t p) := by
          intro p hp hne
          rw [nth_set (by rw [hx]; omega)]
          unfold sw
          by_cases h : p = a
          · rw [if_pos h, if_pos h]
          · rw [if_neg h, if_neg h, if_neg (by omega)]
        have my : ∀ p < t, b ≠ t → nth (s.ys.set b (nth s.ys t)) p = nth s.ys (sw b t p) := by
          intro p hp hne
          rw [nth_set (by rw [hy]; omega)]
          unfold sw
          by_cases h : p = b
          · rw [if_pos h, if_pos h]
          · rw [if_neg h, if_neg h, if_neg (by omega)]
        have idr : ∀ r : List Nat, r = r.map (sw t t) := by
          intro r
          conv_lhs => rw [← List.map_id r]
          apply List.map_congr_left
          intro i _; rw [sw_self]; rfl
        unfold moveCol moveRow
        by_cases h1 : a = t <;> by_cases h2 : b = t
        · subst h2; subst h1
          rw [if_pos rfl, if_pos rfl]
          refine ⟨s.inv, s.xs, s.ys, s.row, s.col, rfl, idr _, idr _, hx, hy, fun i _ j _ => ?_, fun p _ => ?_, fun p _ => ?_⟩ <;> simp only [sw_self]
        · subst h1
          rw [if_pos rfl, if_neg h2]
          refine ⟨_, _, _, _, _, rfl, idr _, swapNums_eq hc (by omega) ht h2, hx, by simpa using hy, fun i hi j hj => ?_, fun p _ => ?_, fun p hp => my p hp h2⟩
          · rw [at2_mat _ hi hj, sw_self]
          · rw [sw_self]
        · subst h2
          rw [if_neg h1, if_pos rfl]
          refine ⟨_, _, _, _, _, rfl, swapNums_eq hr (by omega) ht h1, idr _, by simpa using hx, hy, fun i hi j hj => ?_, fun p hp => mx p hp h1, fun p hp => ?_⟩
          · rw [at2_mat _ hi hj, sw_self]
          · rw [sw_self]
        · rw [if_neg h1, if_neg h2]
          refine ⟨_, _, _, _, _, rfl, swapNums_eq hr (by omega) ht h1, swapNums_eq hc (by omega) ht h2, by simpa using hx, by simpa using hy, fun i hi j hj => ?_,
            fun p hp => mx p hp h1, fun p hp => my p hp h2⟩
          simp only
          rw [at2_mat _ hi hj, at2_mat _ (sw_lt (by omega) ht hi) hj]
      obtain ⟨inv, xs, ys, row, col, k0, k1, k2, k3, k4, k5, k6, k7⟩ := e1
      simp only [moveAll]
      rw [k0]
      have ihs := ih bs (t - 1) { s with inv := inv, xs := xs, ys := ys, row := row, col := col } (by simpa using hl) ha.tail hb.tail (by simp only; omega)
        (by simp only; rw [k1]; exact hr.map_sw (by omega) ht) (by simp only; rw [k2]; exact hc.map_sw (by omega) ht) k3 k4
      obtain ⟨inv', xs', ys', row', col', j0, j1, j2, j3, j4, j5, j6, j7⟩ := ihs
      refine ⟨inv', xs', ys', row', col', j0, ?_, ?_, j3, j4, ?_, ?_, ?_⟩
      · rw [j1]; simp only; rw [k1, List.map_map]; rfl
      · rw [j2]; simp only; rw [k2, List.map_map]; rfl
      · intro i hi j hj
        rw [j5 i hi j hj]
        simp only
        have b1 : sigI bs (t - 1) i < s.N := by
          by_cases h : i ≤ t - 1
          · have := sigI_le bs (t - 1) i hb.tail h; omega
          · have := sig_fix bs (t - 1) i hb.tail (by omega)
            have h2 := sigI_sig bs (t - 1) i
            rw [this] at h2; omega
        have b2 : sigI as (t - 1) j < s.N := by
          by_cases h : j ≤ t - 1
          · have := sigI_le as (t - 1) j ha.tail h; omega
          · have := sig_fix as (t - 1) j ha.tail (by omega)
            have h2 := sigI_sig as (t - 1) j
            rw [this] at h2; omega
        rw [k5 _ b1 _ b2]; rfl
      · intro p hp
        rw [List.length_cons] at hp
        rw [j6 p (by omega)]
        simp only
        rw [k6 _ (by have := sigI_le as (t - 1) p ha.tail (by omega); omega)]; rfl
      · intro p hp
        rw [List.length_cons] at hp
        rw [j7 p (by omega)]
        simp only
        rw [k7 _ (by have := sigI_le bs (t - 1) p hb.tail (by omega); omega)]; rfl

theorem isPerm_map {N : Nat} {r : List Nat} (h : IsPerm N r) (g gi : Nat → Nat) (hg : ∀ p < N, g p < N) (hgi : ∀ p < N, gi p < N)
    (h2 : ∀ p, g (gi p) = p) (h1 : ∀ p, gi (g p) = p) : IsPerm N (r.map g) := by
  refine List.Perm.trans (List.Perm.map _ h) ?_
  rw [List.perm_ext_iff_of_nodup]
  · intro i
    simp only [List.mem_map, List.mem_range]
    constructor
    · rintro ⟨p, hp, rfl⟩; exact hg p hp
    · intro hi; exact ⟨gi i, hgi i hi, h2 i⟩
  · refine List.Nodup.map ?_ List.nodup_range
    intro a b hab
    have := congrArg gi hab
    rwa [h1, h1] at this
  · exact List.nodup_range

/-- tables and arguments after the exchanges, cut to the remaining part -/
theorem moveAll_core {e : Env X Y K} {s : State X Y K} (M : Mid e s) (hN : 1 ≤ s.N) {I J : List Nat} {k : Nat} (lI : I.length = k) (lJ : J.length = k)
    (bI : ∀ i ∈ I, i < s.N) (bJ : ∀ j ∈ J, j < s.N) {as bs : List Nat}
    (pa : as.Perm (select I s.row)) (pb : bs.Perm (select J s.col)) (da : as.Pairwise (· > ·)) (db : bs.Pairwise (· > ·)) :
    ∃ inv xs ys row col, moveAll as bs (s.N - 1) s = { s with inv := inv, xs := xs, ys := ys, row := row, col := col } ∧ k ≤ s.N ∧
      xs.length = s.N ∧ ys.length = s.N ∧ IsPerm s.N row ∧ IsPerm s.N col ∧
      IsPerm (s.N - k) (row.filter (fun a => a < s.N - k)) ∧ IsPerm (s.N - k) (col.filter (fun a => a < s.N - k)) ∧
      (row.filter (fun a => a < s.N - k)).map (nth (xs.take (s.N - k))) = removeAt I (getX s) ∧
      (col.filter (fun a => a < s.N - k)).map (nth (ys.take (s.N - k))) = removeAt J (getY s) ∧
      ∃ g, IsInv s.N (at2 inv) g ∧ ∀ i < s.N - k, ∀ j < s.N - k, g i j = U e.f (xs.take (s.N - k)) (ys.take (s.N - k)) i j := by
  have dec : ∀ (I r as : List Nat), IsPerm s.N r → as.Perm (select I r) → as.Pairwise (· > ·) → (∀ i ∈ I, i < s.N) → Dec as (s.N - 1) := by
    intro I r as hr pa da bI
    refine ⟨da, ?_⟩
    intro a ha
    have := pa.mem_iff.mp ha
    unfold select at this
    obtain ⟨i, hi, rfl⟩ := List.mem_map.mp this
    have := hr.getD_lt (bI i hi)
    unfold nth
    change r.getD i 0 ≤ _
    omega
  have dA := dec I s.row as M.row pa da bI
  have dB := dec J s.col bs M.col pb db bJ
  have lA : as.length = k := by rw [pa.length_eq]; simp [select, lI]
  have lB : bs.length = k := by rw [pb.length_eq]; simp [select, lJ]
  have hk := dA.len
  obtain ⟨inv, xs, ys, row, col, h0, h1, h2, h3, h4, h5, h6, h7⟩ := moveAll_spec as bs (s.N - 1) s (by omega) dA dB (by omega) M.row M.col M.lx M.ly
  have sl : ∀ as, Dec as (s.N - 1) → ∀ p < s.N, sig as (s.N - 1) p < s.N := by
    intro as d p hp; have := sig_le as (s.N - 1) p d (by omega); omega
  have sil : ∀ as, Dec as (s.N - 1) → ∀ p < s.N, sigI as (s.N - 1) p < s.N := by
    intro as d p hp; have := sigI_le as (s.N - 1) p d (by omega); omega
  have pr : IsPerm s.N row := by rw [h1]; exact isPerm_map M.row _ _ (sl as dA) (sil as dA) (sig_sigI _ _) (sigI_sig _ _)
  have pc : IsPerm s.N col := by rw [h2]; exact isPerm_map M.col _ _ (sl bs dB) (sil bs dB) (sig_sigI _ _) (sigI_sig _ _)
  have cutp : ∀ r, IsPerm s.N r → IsPerm (s.N - k) (r.filter (fun a => a < s.N - k)) := by
    intro r hr
    refine List.Perm.trans (List.Perm.filter _ hr) ?_
    rw [List.perm_ext_iff_of_nodup (List.Nodup.filter _ List.nodup_range) List.nodup_range]
    intro a
    simp only [List.mem_filter, List.mem_range, decide_eq_true_eq]
    omega
  have lists : ∀ {α : Type} [Inhabited α] (I r as : List Nat) (zs zs' : List α), IsPerm s.N r → as.Perm (select I r) → Dec as (s.N - 1) → as.length = k →
      (∀ i ∈ I, i < s.N) → (∀ p, p + as.length ≤ s.N - 1 → nth zs' p = nth zs (sigI as (s.N - 1) p)) →
      ((r.map (sig as (s.N - 1))).filter (fun a => a < s.N - k)).map (nth (zs'.take (s.N - k))) = removeAt I (r.map (nth zs)) := by
    intro α _ I r as zs zs' hr pa d la bI hz
    rw [removeAt_map, removeAt_eq_filter I hr.nodup (by rw [hr.length]; exact bI), List.filter_map, List.map_map]
    have : r.filter ((fun a => decide (a < s.N - k)) ∘ sig as (s.N - 1)) = r.filter (fun a => decide (a ∉ select I r)) := by
      apply List.filter_congr
      intro p hp
      have hp' := hr.lt hp
      simp only [Function.comp, decide_eq_decide]
      rw [← pa.mem_iff]
      by_cases hm : p ∈ as
      · have := (sig_mem as (s.N - 1) p d hm).1
        constructor
        · intro; omega
        · intro h; exact absurd hm h
      · have := sig_not_mem as (s.N - 1) p d hm (by omega)
        constructor
        · intro _; exact hm
        · intro; omega
    rw [this]
    apply List.map_congr_left
    intro p hp
    rw [List.mem_filter, decide_eq_true_eq, ← pa.mem_iff] at hp
    have hp' := hr.lt hp.1
    have := sig_not_mem as (s.N - 1) p d hp.2 (by omega)
    simp only [Function.comp]
    rw [nth_take (by omega), hz _ this, sigI_sig]
  refine ⟨inv, xs, ys, row, col, h0, by omega, h3, h4, pr, pc, cutp _ pr, cutp _ pc, ?_, ?_, ?_⟩
  · rw [getX_eq s M.row.length, h1]
    exact lists I s.row as s.xs xs M.row pa dA lA bI h6
  · rw [getY_eq s M.col.length, h2]
    refine lists J s.col bs s.ys ys M.col pb dB lB bJ ?_
    intro p hp
    exact h7 p (by omega)
  · have P : ∀ as, Dec as (s.N - 1) → IsPerm s.N ((List.range s.N).map (sigI as (s.N - 1))) := by
      intro as d
      exact isPerm_map (List.Perm.refl _) _ _ (sil as d) (sl as d) (sigI_sig _ _) (sig_sigI _ _)
    have hinv := M.inv.ord (P as dA) (P bs dB)
    have gd : ∀ as, ∀ p < s.N, ((List.range s.N).map (sigI as (s.N - 1))).getD p 0 = sigI as (s.N - 1) p := by
      intro as p hp
      rw [List.getD_eq_getElem _ _ (by simpa using hp)]; simp
    refine ⟨ord (U e.f s.xs s.ys) ((List.range s.N).map (sigI as (s.N - 1))) ((List.range s.N).map (sigI bs (s.N - 1))), ?_, ?_⟩
    · refine hinv.congr ?_ (fun _ _ _ _ => rfl)
      intro i hi j hj
      unfold ord
      rw [gd bs i hi, gd as j hj, h5 i hi j hj]
    · intro i hi j hj
      unfold ord U
      rw [gd as i (by omega), gd bs j (by omega), nth_take hi, nth_take hj, h6 i (by omega), h7 j (by omega)]

theorem detN_ne_of_dX {f : X → Y → K} {n : Nat} {xs : List X} {ys : List Y} {r c : List Nat} (hr : IsPerm n r) (hc : IsPerm n c)
    (h : dX f (r.map (nth xs)) (c.map (nth ys)) ≠ 0) : detN n (U f xs ys) ≠ 0 := by
  intro h0
  apply h
  rw [← detO_U f xs ys hr.length hc.length, detO_perm _ hr hc, h0, mul_zero]

theorem clear_after {e : Env X Y K} {s : State X Y K} (caps : Caps s) (sgn : s.newsign = 1 ∨ s.newsign = -1)
    (hd : (s.newsign : K) * s.newdet = 1) : After e (clear s) ∧ getX (clear s) = [] ∧ getY (clear s) = [] := by
  refine ⟨⟨⟨rfl, rfl, List.Perm.refl _, List.Perm.refl _, ?_, ⟨caps.k1, caps.w, caps.wk, caps.wk1⟩, Nat.zero_le _⟩, sgn, ?_⟩, rfl, rfl⟩
  · unfold IsInv; ext i j; exact Fin.elim0 i
  · change _ = dX e.f [] []
    rw [dX_nil]; exact hd

theorem removeAt_all {α : Type} [Inhabited α] (v : List α) (I : List Nat) (hs : I.Pairwise (· < ·)) (hb : ∀ i ∈ I, i < v.length) (hl : I.length = v.length) :
    removeAt I v = [] := by
  have := removeAt_length v I hs hb
  exact List.length_eq_zero_iff.mp (by omega)

theorem moveRow_N (s : State X Y K) (a t : Nat) : (moveRow s a t).N = s.N := by unfold moveRow; split <;> rfl
theorem moveRow_w1 (s : State X Y K) (a t : Nat) : (moveRow s a t).w1 = s.w1 := by unfold moveRow; split <;> rfl

/-- **removal of one row and column** -/
theorem tryRemove_outcome {e : Env X Y K} {s : State X Y K} (G : Good e s) {i j : Int} {r : K} {s1 : State X Y K}
    (h : tryRemove s i j = .ok r s1) :
    (0 ≤ i ∧ i < s.N) ∧ (0 ≤ j ∧ j < s.N) ∧ Outcome e s r s1 ((getX s).eraseIdx i.toNat) ((getY s).eraseIdx j.toNat) := by
  unfold tryRemove at h
  split_ifs at h with h1 h2 h3
  refine ⟨h2, h3, ?_⟩
  injection h with hr hs
  obtain ⟨i, rfl⟩ := Int.eq_ofNat_of_zero_le h2.1
  obtain ⟨j, rfl⟩ := Int.eq_ofNat_of_zero_le h3.1
  have hi : i < s.N := by omega
  have hj : j < s.N := by omega
  simp only [Int.toNat_natCast] at hr hs ⊢
  have hgx := getX_eq s G.row.length
  have hgy := getY_eq s G.col.length
  have hd := dX_remove e.f G.inv G.row G.col (I := [i]) (J := [j]) (k := 1) rfl rfl (by simp) (by simp) (by simpa using hi) (by simpa using hj)
  rw [detN_one, ← hgx, ← hgy, removeAt_singleton _ _ (by rw [getX_length]; exact hi), removeAt_singleton _ _ (by rw [getY_length]; exact hj)] at hd
  simp only [List.getD_cons_zero, List.sum_cons, List.sum_nil, add_zero] at hd
  have hfl := flip_cast (K := K) s.sign (i + j)
  push_cast at hfl
  have hfs := flip_sgn G.sgn ((i : Int) + j)
  have hsq := sq_one (K := K) G.sgn
  have hGd := G.det
  have hnd : ((flip s.sign ((i : Int) + j) : Int) : K) * (s.det * at2 s.inv (s.col.getD j 0) (s.row.getD i 0)) = dX e.f ((getX s).eraseIdx i) ((getY s).eraseIdx j) := by
    rw [hd, hfl]
    linear_combination ((-1) ^ (i + j) * at2 s.inv (s.col.getD j 0) (s.row.getD i 0)) * hGd
  have G1 : Good e s1 := by
    rw [← hs]
    exact G.of_core rfl rfl rfl rfl rfl rfl rfl rfl ⟨G.caps.k1, G.caps.w, G.caps.wk, G.caps.wk1⟩ G.nmax
  have hN1 : s1.N = s.N := by rw [← hs]
  have hrow1 : s1.row = s.row := by rw [← hs]
  have hcol1 : s1.col = s.col := by rw [← hs]
  have hir : s1.w1.ireal = s.row.getD i 0 := by rw [← hs]
  have hjr : s1.w1.jreal = s.col.getD j 0 := by rw [← hs]
  have hl1 : s1.lastTry = .remove := by rw [← hs]
  have hns : s1.newsign = flip s.sign ((i : Int) + j) := by rw [← hs]
  have hndt : s1.newdet = s.det * at2 s.inv (s.col.getD j 0) (s.row.getD i 0) := by rw [← hs]
  have hgx1 : getX s1 = getX s := by rw [← hs]; rfl
  have hgy1 : getY s1 = getY s := by rw [← hs]; rfl
  have hop : s1.nOpts = s.nOpts := by rw [← hs]
  clear hs
  have core := moveAll_core (I := [i]) (J := [j]) (k := 1) (as := [s1.w1.ireal]) (bs := [s1.w1.jreal]) G1.toMid (by omega) rfl rfl (by rw [hN1]; simpa using hi)
    (by rw [hN1]; simpa using hj) (by rw [hrow1, hir]; exact List.Perm.refl _) (by rw [hcol1, hjr]; exact List.Perm.refl _) (by simp) (by simp)
  obtain ⟨inv, xs, ys, row, col, k0, k1, k2, k3, kr, kc, k4, k5, k6, k7, g, kg, k8⟩ := core
  simp only [moveAll] at k0
  rw [hgx1] at k6
  rw [hgy1] at k7
  rw [removeAt_singleton _ _ (by rw [getX_length]; exact hi)] at k6
  rw [removeAt_singleton _ _ (by rw [getY_length]; exact hj)] at k7
  have fil : ∀ r, IsPerm s1.N r → r.filter (fun a => decide (a ≠ s1.N - 1)) = r.filter (fun a => decide (a < s1.N - 1)) := by
    intro r hr
    apply List.filter_congr
    intro a ha
    have := hr.lt ha
    simp only [decide_eq_decide]; omega
  have drop : ∀ {α : Type} (l : List α), l.length = s1.N → l.dropLast = l.take (s1.N - 1) := by
    intro α l hl; rw [List.dropLast_eq_take, hl]
  have kg' : IsInv (s1.N - 1 + 1) (at2 inv) g := by rw [Nat.sub_add_cancel k1]; exact kg
  refine ⟨G1, hgx1, hgy1, hop, by rw [hl1]; simp, ?_, ?_, ?_, ?_⟩
  · rw [List.length_eraseIdx, List.length_eraseIdx, getX_length, getY_length, if_pos hi, if_pos hj]
  · rw [← hr, hd]
    push_cast
    rw [hfl]
    linear_combination (at2 s.inv (s.col.getD j 0) (s.row.getD i 0) * (-1) ^ (i + j) * dX e.f (getX s) (getY s)) * hsq
  · intro s2 h2
    simp only [completeCase, hl1, completeRemove, moveRow_N, moveRow_w1] at h2
    by_cases hn1 : s1.N = 1
    · rw [if_pos hn1] at h2
      injection h2 with h2
      have z1 : (getX s).eraseIdx i = [] := List.length_eq_zero_iff.mp (by rw [List.length_eraseIdx, getX_length, if_pos hi]; omega)
      have z2 : (getY s).eraseIdx j = [] := List.length_eq_zero_iff.mp (by rw [List.length_eraseIdx, getY_length, if_pos hj]; omega)
      rw [z1, z2] at hnd ⊢
      rw [dX_nil, ← hns, ← hndt] at hnd
      rw [← h2]
      exact clear_after G1.caps (by rw [hns]; exact hfs) hnd
    · rw [if_neg hn1] at h2
      rw [k0] at h2
      simp only at h2
      split_ifs at h2 with h0
      injection h2 with h2
      rw [fil _ kr, fil _ kc, drop _ k2, drop _ k3] at h2
      have gX : getX s2 = (getX s).eraseIdx i := by
        rw [← h2]; exact Eq.trans (getX_eq _ k4.length) k6
      have gY : getY s2 = (getY s).eraseIdx j := by
        rw [← h2]; exact Eq.trans (getY_eq _ k5.length) k7
      refine ⟨⟨⟨?_, ?_, ?_, ?_, ?_, ?_, ?_⟩, ?_, ?_⟩, gX, gY⟩
      · rw [← h2]; simp only [List.length_take]; omega
      · rw [← h2]; simp only [List.length_take]; omega
      · rw [← h2]; exact k4
      · rw [← h2]; exact k5
      · rw [← h2]
        refine IsInv.congr (a := at2 (mat (s1.N - 1) (s1.N - 1) _)) (g := g) ?_ (fun _ _ _ _ => rfl) k8
        refine kg'.truncate (fun _ _ => 1 / at2 inv (s1.N - 1) (s1.N - 1)) (isInv_one ?_) _ ?_
        · simp only [add_zero]; field_simp
        · intro p hp q hq
          rw [at2_mat _ hp hq]
          simp only [Fin.sum_univ_one, Fin.val_zero, add_zero]
          ring
      · rw [← h2]; exact ⟨G1.caps.k1, G1.caps.w, G1.caps.wk, G1.caps.wk1⟩
      · rw [← h2]; have := G1.nmax; simp only; omega
      · rw [← h2]; simp only; rw [hns]; exact hfs
      · rw [gX, gY, ← h2]; simp only; rw [hns, hndt]; exact hnd
  · intro hne
    simp only [completeCase, hl1, completeRemove, moveRow_N, moveRow_w1]
    by_cases hn1 : s1.N = 1
    · rw [if_pos hn1]; exact ⟨_, rfl⟩
    · rw [if_neg hn1]
      rw [k0]
      simp only
      rw [if_neg]
      · exact ⟨_, rfl⟩
      · intro h0
        rw [← k6, ← k7] at hne
        have h1 := detN_ne_of_dX k4 k5 hne
        rw [← detN_congr k8, detN_truncate kg', detN_one] at h1
        apply h1
        simp only [add_zero]
        rw [h0, mul_zero]

/-- **removal of several rows and columns** -/
theorem tryRemoveK_outcome {e : Env X Y K} {s : State X Y K} (G : Good e s) {i j : List Int} {r : K} {s1 : State X Y K}
    (h : tryRemoveK s i j = .ok r s1) :
    i.length = j.length ∧ InRange i s.N ∧ InRange j s.N ∧ i.Nodup ∧ j.Nodup ∧
    Outcome e s r s1 (removeAt (i.map Int.toNat) (getX s)) (removeAt (j.map Int.toNat) (getY s)) := by
  unfold tryRemoveK at h
  have pi := List.perm_insertionSort (· ≤ ·) i
  have pj := List.perm_insertionSort (· ≤ ·) j
  have si := List.pairwise_insertionSort (· ≤ ·) i
  have sj := List.pairwise_insertionSort (· ≤ ·) j
  dsimp only at h
  generalize i.insertionSort (· ≤ ·) = i' at *
  generalize j.insertionSort (· ≤ ·) = j' at *
  split_ifs at h with h1 h2 h3 c1 c2 c3
  simp only [Decidable.not_not] at h1 h3
  obtain ⟨a, b, c, d, g, hres⟩ := reserve_eq { s with k := i'.length } (s.N - i'.length : Int) i'.length
  obtain ⟨hcaps, hnm, hkm, hnm2⟩ := reserve_caps { s with k := i'.length } (s.N - i'.length : Int) i'.length ⟨G.caps.k1, G.caps.w, G.caps.wk, G.caps.wk1⟩
  rw [hres] at h hcaps hnm hkm hnm2 c1 c2 c3
  simp only at h hnm hkm hnm2 c1 c2 c3
  injection h with hr hs
  rw [List.all_eq_true] at c3
  have vi' : InRange i' s.N := by
    intro p hp
    have := c3 p (List.mem_append_left _ hp)
    simpa using this
  have vj' : InRange j' s.N := by
    intro p hp
    have := c3 p (List.mem_append_right _ hp)
    simpa using this
  have vi : InRange i s.N := vi'.perm pi.symm
  have vj : InRange j s.N := vj'.perm pj.symm
  have sti := checkPos_strict si c1.1
  have stj := checkPos_strict sj c1.2
  have ndi : i.Nodup := pi.nodup_iff.mp (sti.imp (fun h => by omega))
  have ndj : j.Nodup := pj.nodup_iff.mp (stj.imp (fun h => by omega))
  refine ⟨by rw [← pi.length_eq, ← pj.length_eq]; exact h3, vi, vj, ndi, ndj, ?_⟩
  -- natural positions
  obtain ⟨I, hI⟩ := toNat_list (fun p hp => (vi' p hp).1)
  obtain ⟨J, hJ⟩ := toNat_list (fun p hp => (vj' p hp).1)
  have mI : ∀ p, p ∈ i.map Int.toNat ↔ p ∈ I := by
    intro p
    rw [(pi.map Int.toNat).symm.mem_iff, hI, List.map_map]
    simp [Function.comp]
  have mJ : ∀ p, p ∈ j.map Int.toNat ↔ p ∈ J := by
    intro p
    rw [(pj.map Int.toNat).symm.mem_iff, hJ, List.map_map]
    simp [Function.comp]
  rw [removeAt_congr mI, removeAt_congr mJ]
  have stI : I.Pairwise (· < ·) := by
    rw [hI, List.pairwise_map] at sti
    exact sti.imp (fun h => by omega)
  have stJ : J.Pairwise (· < ·) := by
    rw [hJ, List.pairwise_map] at stj
    exact stj.imp (fun h => by omega)
  have bI : ∀ p ∈ I, p < s.N := by
    intro p hp
    have := vi' p (by rw [hI]; exact List.mem_map.mpr ⟨p, hp, rfl⟩)
    omega
  have bJ : ∀ p ∈ J, p < s.N := by
    intro p hp
    have := vj' p (by rw [hJ]; exact List.mem_map.mpr ⟨p, hp, rfl⟩)
    omega
  have lI : I.length = i'.length := by rw [hI]; simp
  have lJ : J.length = i'.length := by rw [h3, hJ]; simp
  have hgx := getX_eq s G.row.length
  have hgy := getY_eq s G.col.length
  have hd := dX_remove e.f G.inv G.row G.col lI lJ stI stJ bI bJ
  rw [← hgx, ← hgy] at hd
  have re : ∀ (r : List Nat), i'.map (fun p => r.getD p.toNat 0) = select I r := by
    intro r; rw [hI, List.map_map]; rfl
  have re' : ∀ (r : List Nat), j'.map (fun p => r.getD p.toNat 0) = select J r := by
    intro r; rw [hJ, List.map_map]; rfl
  rw [re, re'] at hr hs
  have hksi : detN i'.length (at2 (mat i'.length i'.length (fun a b => at2 s.inv ((select J s.col).getD a 0) ((select I s.row).getD b 0)))) =
      detN i'.length (fun l m => at2 s.inv (s.col.getD (J.getD l 0) 0) (s.row.getD (I.getD m 0) 0)) := by
    rw [detN_mat]
    apply detN_congr
    intro l hl m hm
    have e1 : (select J s.col).getD l 0 = s.col.getD (J.getD l 0) 0 := nth_map (fun p => nth s.col p) (by omega)
    have e2 : (select I s.row).getD m 0 = s.row.getD (I.getD m 0) 0 := nth_map (fun p => nth s.row p) (by omega)
    rw [e1, e2]
  rw [hksi] at hr hs
  have hsum : idxSum i' j' = ((I.sum + J.sum : Nat) : Int) := by rw [hI, hJ, idxSum_cast _ _ (by omega)]
  have hfl := flip_cast (K := K) s.sign (I.sum + J.sum)
  rw [← hsum] at hfl
  have hfs := flip_sgn G.sgn (idxSum i' j')
  have hsq := sq_one (K := K) G.sgn
  have hGd := G.det
  generalize hD : detN i'.length (fun l m => at2 s.inv (s.col.getD (J.getD l 0) 0) (s.row.getD (I.getD m 0) 0)) = D at *
  have hnd : ((flip s.sign (idxSum i' j') : Int) : K) * (s.det * D) = dX e.f (removeAt I (getX s)) (removeAt J (getY s)) := by
    rw [hd, hfl]
    linear_combination ((-1) ^ (I.sum + J.sum) * D) * hGd
  have hlx : (removeAt I (getX s)).length + i'.length = s.N := by
    have := removeAt_length (getX s) I stI (by rw [getX_length]; exact bI)
    rw [getX_length, lI] at this; exact this
  have hly : (removeAt J (getY s)).length + i'.length = s.N := by
    have := removeAt_length (getY s) J stJ (by rw [getY_length]; exact bJ)
    rw [getY_length, lJ] at this; exact this
  have G1 : Good e s1 := by
    rw [← hs]
    exact G.of_core rfl rfl rfl rfl rfl rfl rfl rfl ⟨hcaps.k1, hcaps.w, hcaps.wk, hcaps.wk1⟩ (by have := G.nmax; simp only; omega)
  have hN1 : s1.N = s.N := by rw [← hs]
  have hk1 : s1.k = i'.length := by rw [← hs]
  have hrow1 : s1.row = s.row := by rw [← hs]
  have hcol1 : s1.col = s.col := by rw [← hs]
  have hir : s1.wk.ireal = select I s.row := by rw [← hs]
  have hjr : s1.wk.jreal = select J s.col := by rw [← hs]
  have hl1 : s1.lastTry = .removeK := by rw [← hs]
  have hns : s1.newsign = flip s.sign (idxSum i' j') := by rw [← hs]
  have hndt : s1.newdet = s.det * D := by rw [← hs]
  have hgx1 : getX s1 = getX s := by rw [← hs]; rfl
  have hgy1 : getY s1 = getY s := by rw [← hs]; rfl
  have hop : s1.nOpts = s.nOpts := by rw [← hs]
  clear hs
  -- sorted real positions
  have srt : ∀ (I r : List Nat), IsPerm s.N r → I.Pairwise (· < ·) → (∀ p ∈ I, p < s.N) →
      (((select I r).insertionSort (· ≤ ·)).reverse).Perm (select I r) ∧ (((select I r).insertionSort (· ≤ ·)).reverse).Pairwise (· > ·) := by
    intro I r hr stI bI
    have p1 := List.perm_insertionSort (· ≤ ·) (select I r)
    refine ⟨(List.reverse_perm _).trans p1, ?_⟩
    rw [List.pairwise_reverse]
    have s1 := List.pairwise_insertionSort (· ≤ ·) (select I r)
    have nd : ((select I r).insertionSort (· ≤ ·)).Nodup := by
      rw [p1.nodup_iff]
      unfold select
      refine List.Nodup.map_on ?_ (stI.imp (fun h => by omega))
      intro a ha b hb hab
      exact hr.inj (bI a ha) (bI b hb) hab
    exact (s1.and nd).imp (fun h => by have := h.1; have := h.2; omega)
  obtain ⟨pa, da⟩ := srt I s.row G.row stI bI
  obtain ⟨pb, db⟩ := srt J s.col G.col stJ bJ
  rw [← hir] at pa da
  rw [← hjr] at pb db
  have core := moveAll_core (I := I) (J := J) (k := i'.length) (as := (s1.wk.ireal.insertionSort (· ≤ ·)).reverse) (bs := (s1.wk.jreal.insertionSort (· ≤ ·)).reverse)
    G1.toMid (by omega) lI lJ (by rw [hN1]; exact bI) (by rw [hN1]; exact bJ) (by rw [hrow1, ← hir]; exact pa) (by rw [hcol1, ← hjr]; exact pb) da db
  obtain ⟨inv, xs, ys, row, col, k0, k1, k2, k3, kr, kc, k4, k5, k6, k7, g, kg, k8⟩ := core
  rw [hgx1] at k6
  rw [hgy1] at k7
  have kg' : IsInv (s1.N - i'.length + i'.length) (at2 inv) g := by rw [Nat.sub_add_cancel k1]; exact kg
  refine ⟨G1, hgx1, hgy1, hop, by rw [hl1]; simp, by omega, ?_, ?_, ?_⟩
  · rw [← hr, hd]
    push_cast
    rw [hfl]
    linear_combination (D * (-1) ^ (I.sum + J.sum) * dX e.f (getX s) (getY s)) * hsq
  · intro s2 h2
    simp only [completeCase, hl1, completeRemoveK, hk1] at h2
    by_cases hn1 : s1.N = i'.length
    · rw [if_pos hn1] at h2
      injection h2 with h2
      have z1 : removeAt I (getX s) = [] := List.length_eq_zero_iff.mp (by omega)
      have z2 : removeAt J (getY s) = [] := List.length_eq_zero_iff.mp (by omega)
      rw [z1, z2] at hnd ⊢
      rw [dX_nil, ← hns, ← hndt] at hnd
      rw [← h2]
      exact clear_after G1.caps (by rw [hns]; exact hfs) hnd
    · rw [if_neg hn1, k0] at h2
      simp only at h2
      split_ifs at h2 with h0
      injection h2 with h2
      have gX : getX s2 = removeAt I (getX s) := by
        rw [← h2]; exact Eq.trans (getX_eq _ k4.length) k6
      have gY : getY s2 = removeAt J (getY s) := by
        rw [← h2]; exact Eq.trans (getY_eq _ k5.length) k7
      refine ⟨⟨⟨?_, ?_, ?_, ?_, ?_, ?_, ?_⟩, ?_, ?_⟩, gX, gY⟩
      · rw [← h2]; simp only [List.length_take]; omega
      · rw [← h2]; simp only [List.length_take]; omega
      · rw [← h2]; exact k4
      · rw [← h2]; exact k5
      · rw [← h2]
        refine IsInv.congr (a := at2 (mat (s1.N - i'.length) (s1.N - i'.length) _)) (g := g) ?_ (fun _ _ _ _ => rfl) k8
        refine kg'.truncate _ (invN_isInv _ h0) _ ?_
        intro p hp q hq
        rw [at2_mat _ hp hq]
        congr 1
        rw [dot_eq]
        apply Finset.sum_congr rfl
        intro l _
        rw [dot_eq, Finset.mul_sum]
        apply Finset.sum_congr rfl
        intro m _
        ring
      · rw [← h2]; exact ⟨G1.caps.k1, G1.caps.w, G1.caps.wk, G1.caps.wk1⟩
      · rw [← h2]; have := G1.nmax; simp only; omega
      · rw [← h2]; simp only; rw [hns]; exact hfs
      · rw [gX, gY, ← h2]; simp only; rw [hns, hndt]; exact hnd
  · intro hne
    simp only [completeCase, hl1, completeRemoveK, hk1]
    by_cases hn1 : s1.N = i'.length
    · rw [if_pos hn1]; exact ⟨_, rfl⟩
    · rw [if_neg hn1, k0]
      simp only
      rw [if_neg]
      · exact ⟨_, rfl⟩
      · intro h0
        rw [← k6, ← k7] at hne
        have h1 := detN_ne_of_dX k4 k5 hne
        rw [← detN_congr k8, detN_truncate kg', h0, mul_zero] at h1
        exact h1 rfl

end

end Verif.DetManip
