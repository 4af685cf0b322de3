import Verif.Lattice.HilbertTransform

/-!
# Property C135: Dyson equation and hybridisation function

Sources: `/repo/python/triqs/gf/tools.py` (`dyson`, `delta`).

All functions are taken at one point of the mesh, where they are square matrices; the inverse of a singular matrix is an
error. The fit of the high-frequency tail in `delta` is a parameter (see `Verif/Mesh/TailFit.lean` for it). Exact arithmetic.
-/

namespace Verif.Dyson

open Matrix Verif.HilbertTransform
open scoped ComplexOrder

variable {o : Type*} [Fintype o] [DecidableEq o]

/-! ## Model -/

inductive Err where
  | value
  | singular
deriving DecidableEq

/-- `inverse`, tools.py:32-40 -/
noncomputable def inverse (M : Matrix o o ℂ) : Except Err (Matrix o o ℂ) :=
  match invert M with
  | some N => .ok N
  | none => .error .singular

/-- a keyword argument of the call -/
def kw (args : List (String × Matrix o o ℂ)) (k : String) : Matrix o o ℂ := (args.lookup k).getD 0

/-- the test of tools.py:108: `set(keys) < set([...])` is a proper subset. The keywords of a call are different. -/
def accepted (keys : List String) : Bool :=
  keys.length == 2 && (keys.all (fun k => ["G0_iw", "G_iw", "Sigma_iw"].contains k) &&
    ["G0_iw", "G_iw", "Sigma_iw"].any (fun k => !keys.contains k))

/-- `dyson`, tools.py:95-118 -/
noncomputable def dyson (args : List (String × Matrix o o ℂ)) : Except Err (Matrix o o ℂ) :=
  let keys := args.map Prod.fst
  if !accepted keys then .error .value
  else if !keys.contains "G0_iw" then do
    let i ← inverse (kw args "G_iw")
    inverse (kw args "Sigma_iw" + i)
  else if !keys.contains "G_iw" then do
    let i ← inverse (kw args "G0_iw")
    inverse (i - kw args "Sigma_iw")
  else do
    let i ← inverse (kw args "G0_iw")
    let j ← inverse (kw args "G_iw")
    .ok (i - j)

/-- `delta`, tools.py:84-89, on the points `z` of the mesh. `fit` gives the constant of the tail, `tail[0]` of line 86. -/
noncomputable def delta {n : ℕ} (z : Fin n → ℂ) (fit : (Fin n → Matrix o o ℂ) → Matrix o o ℂ) (g : Fin n → Matrix o o ℂ) :
    Except Err (Fin n → Matrix o o ℂ) :=
  open Classical in
  if ∀ i, IsUnit (g i).det then
    let d := fun i => z i • (1 : Matrix o o ℂ) - (g i)⁻¹
    .ok (fun i => d i - fit d)
  else .error .singular

/-! ## Proofs -/

theorem inverse_ok {M N : Matrix o o ℂ} : inverse M = .ok N ↔ IsUnit M.det ∧ N = M⁻¹ := by
  unfold inverse invert
  by_cases h : IsUnit M.det
  · rw [if_pos h]; simp only [h, true_and, Except.ok.injEq]; exact eq_comm
  · rw [if_neg h]; simp only [h, false_and, reduceCtorEq]

theorem dyson_G (G0 S : Matrix o o ℂ) : dyson [("G0_iw", G0), ("Sigma_iw", S)] =
    (inverse G0 >>= fun i => inverse (i - S)) := rfl

theorem dyson_G' (G0 S : Matrix o o ℂ) : dyson [("Sigma_iw", S), ("G0_iw", G0)] = dyson [("G0_iw", G0), ("Sigma_iw", S)] := rfl

theorem dyson_G0 (G S : Matrix o o ℂ) : dyson [("G_iw", G), ("Sigma_iw", S)] =
    (inverse G >>= fun i => inverse (S + i)) := rfl

theorem dyson_S (G0 G : Matrix o o ℂ) : dyson [("G0_iw", G0), ("G_iw", G)] =
    (inverse G0 >>= fun i => inverse G >>= fun j => .ok (i - j)) := rfl

theorem bind_ok {α β : Type _} {x : Except Err α} {f : α → Except Err β} {b : β} :
    (x >>= f) = .ok b ↔ ∃ a, x = .ok a ∧ f a = .ok b := by
  cases x <;> simp [bind, Except.bind]

theorem ok_G {G0 S G : Matrix o o ℂ} :
    dyson [("G0_iw", G0), ("Sigma_iw", S)] = .ok G ↔ IsUnit G0.det ∧ IsUnit (G0⁻¹ - S).det ∧ G = (G0⁻¹ - S)⁻¹ := by
  rw [dyson_G, bind_ok]
  simp only [inverse_ok]
  constructor
  · rintro ⟨a, ⟨h1, rfl⟩, h2, h3⟩; exact ⟨h1, h2, h3⟩
  · rintro ⟨h1, h2, h3⟩; exact ⟨_, ⟨h1, rfl⟩, h2, h3⟩

theorem ok_G0 {G0 S G : Matrix o o ℂ} :
    dyson [("G_iw", G), ("Sigma_iw", S)] = .ok G0 ↔ IsUnit G.det ∧ IsUnit (S + G⁻¹).det ∧ G0 = (S + G⁻¹)⁻¹ := by
  rw [dyson_G0, bind_ok]
  simp only [inverse_ok]
  constructor
  · rintro ⟨a, ⟨h1, rfl⟩, h2, h3⟩; exact ⟨h1, h2, h3⟩
  · rintro ⟨h1, h2, h3⟩; exact ⟨_, ⟨h1, rfl⟩, h2, h3⟩

theorem ok_S {G0 S G : Matrix o o ℂ} :
    dyson [("G0_iw", G0), ("G_iw", G)] = .ok S ↔ IsUnit G0.det ∧ IsUnit G.det ∧ S = G0⁻¹ - G⁻¹ := by
  rw [dyson_S, bind_ok]
  simp only [bind_ok, inverse_ok]
  constructor
  · rintro ⟨a, ⟨h1, rfl⟩, b, ⟨h2, rfl⟩, h3⟩; cases h3; exact ⟨h1, h2, rfl⟩
  · rintro ⟨h1, h2, rfl⟩; exact ⟨_, ⟨h1, rfl⟩, _, ⟨h2, rfl⟩, rfl⟩

/-- C135: the three uses of `dyson` agree: each two of the functions give the third one, or none of the uses does. -/
theorem C135_consistent (G0 G S : Matrix o o ℂ) :
    (dyson [("G0_iw", G0), ("Sigma_iw", S)] = .ok G ↔ dyson [("G0_iw", G0), ("G_iw", G)] = .ok S) ∧
      (dyson [("G0_iw", G0), ("Sigma_iw", S)] = .ok G ↔ dyson [("G_iw", G), ("Sigma_iw", S)] = .ok G0) := by
  rw [ok_G, ok_G0, ok_S]
  constructor
  · constructor
    · rintro ⟨h1, h2, rfl⟩
      exact ⟨h1, isUnit_nonsing_inv_det _ h2, by rw [nonsing_inv_nonsing_inv _ h2]; abel⟩
    · rintro ⟨h1, h2, rfl⟩
      have : G0⁻¹ - (G0⁻¹ - G⁻¹) = G⁻¹ := by abel
      rw [this]
      exact ⟨h1, isUnit_nonsing_inv_det _ h2, (nonsing_inv_nonsing_inv _ h2).symm⟩
  · constructor
    · rintro ⟨h1, h2, rfl⟩
      have : S + ((G0⁻¹ - S)⁻¹)⁻¹ = G0⁻¹ := by rw [nonsing_inv_nonsing_inv _ h2]; abel
      rw [this]
      exact ⟨isUnit_nonsing_inv_det _ h2, isUnit_nonsing_inv_det _ h1, (nonsing_inv_nonsing_inv _ h1).symm⟩
    · rintro ⟨h1, h2, rfl⟩
      have : ((S + G⁻¹)⁻¹)⁻¹ - S = G⁻¹ := by rw [nonsing_inv_nonsing_inv _ h2]; abel
      rw [this]
      exact ⟨isUnit_nonsing_inv_det _ h2, isUnit_nonsing_inv_det _ h1, (nonsing_inv_nonsing_inv _ h1).symm⟩

/-- C135: the result is the solution of the Dyson equation `G = G0 + G0 Σ G`; it exists if and only if the equation has a
solution, which then is the only one. -/
theorem C135_equation (G0 S G : Matrix o o ℂ) (h0 : IsUnit G0.det) :
    dyson [("G0_iw", G0), ("Sigma_iw", S)] = .ok G ↔ G = G0 + G0 * S * G := by
  rw [ok_G]
  constructor
  · rintro ⟨-, h2, hG⟩
    have h : (G0⁻¹ - S) * G = 1 := by rw [hG]; exact mul_nonsing_inv _ h2
    have h3 : G0 * ((G0⁻¹ - S) * G) = G0 * 1 := by rw [h]
    rw [← Matrix.mul_assoc, Matrix.mul_sub, mul_nonsing_inv _ h0, Matrix.sub_mul, Matrix.one_mul, Matrix.mul_one] at h3
    exact sub_eq_iff_eq_add.1 h3
  · intro h
    have h3 : (G0⁻¹ - S) * G = 1 := by
      have : (1 - G0 * S) * G = G0 := by
        rw [Matrix.sub_mul, Matrix.one_mul]
        nth_rewrite 1 [h]
        abel
      calc (G0⁻¹ - S) * G = G0⁻¹ * ((1 - G0 * S) * G) := by
            rw [← Matrix.mul_assoc, Matrix.mul_sub, Matrix.mul_one, ← Matrix.mul_assoc, nonsing_inv_mul _ h0, Matrix.one_mul]
        _ = 1 := by rw [this, nonsing_inv_mul _ h0]
    have hu : IsUnit (G0⁻¹ - S).det := by
      have := congrArg det h3
      rw [det_mul, det_one] at this
      exact IsUnit.of_mul_eq_one _ this
    exact ⟨h0, hu, (inv_eq_right_inv h3).symm⟩

/-- C135: the equation with the factors in the other order holds too. -/
theorem C135_right (G0 S G : Matrix o o ℂ) (h : dyson [("G0_iw", G0), ("Sigma_iw", S)] = .ok G) : G = G0 + G * S * G0 := by
  rw [ok_G] at h
  obtain ⟨h0, h2, hG⟩ := h
  have h : G * (G0⁻¹ - S) = 1 := by rw [hG]; exact nonsing_inv_mul _ h2
  have h3 : (G * (G0⁻¹ - S)) * G0 = 1 * G0 := by rw [h]
  rw [Matrix.mul_assoc, Matrix.sub_mul, nonsing_inv_mul _ h0, Matrix.mul_sub, Matrix.one_mul, Matrix.mul_one, ← Matrix.mul_assoc] at h3
  exact sub_eq_iff_eq_add.1 h3

/-- C135: above the real axis, for a causal `G0` and self energy, the result exists and is causal. -/
theorem C135_causal (G0 S : Matrix o o ℂ) (h0 : (imPart (-G0)).PosDef) (hS : (imPart (-S)).PosSemidef) :
    ∃ G, dyson [("G0_iw", G0), ("Sigma_iw", S)] = .ok G ∧ (imPart (-G)).PosDef := by
  have hu' := isUnit_of_imPart h0
  have hu : IsUnit G0.det := by
    rw [det_neg] at hu'
    exact (IsUnit.mul_iff.1 hu').2
  have hinv : (-G0)⁻¹ = -G0⁻¹ := inv_eq_right_inv (by rw [neg_mul_neg, mul_nonsing_inv _ hu])
  have h1 : (imPart (G0⁻¹)).PosDef := by
    have := imPart_inv_posDef h0
    rwa [hinv, neg_neg] at this
  have h2 : (imPart (G0⁻¹ - S)).PosDef := by
    rw [imPart_sub]
    exact h1.add_posSemidef hS
  exact ⟨_, ok_G.2 ⟨hu, isUnit_of_imPart h2, rfl⟩, imPart_inv_posDef h2⟩

/-- C135: a call has to give two of the three functions, in any order, and no other argument. -/
theorem C135_outcome (args : List (String × Matrix o o ℂ)) (hn : (args.map Prod.fst).Nodup) :
    dyson args ≠ .error .value ↔
      (args.map Prod.fst).length = 2 ∧ ∀ k ∈ args.map Prod.fst, k = "G0_iw" ∨ k = "G_iw" ∨ k = "Sigma_iw" := by
  have hacc : accepted (args.map Prod.fst) = true ↔
      (args.map Prod.fst).length = 2 ∧ ∀ k ∈ args.map Prod.fst, k = "G0_iw" ∨ k = "G_iw" ∨ k = "Sigma_iw" := by
    generalize args.map Prod.fst = keys at *
    unfold accepted
    simp only [Bool.and_eq_true, beq_iff_eq, List.all_eq_true, List.contains_iff_mem]
    constructor
    · rintro ⟨h1, h2, -⟩
      exact ⟨h1, fun k hk => by simpa using h2 k hk⟩
    · rintro ⟨h1, h2⟩
      refine ⟨h1, fun k hk => by simpa using h2 k hk, ?_⟩
      match keys, h1 with
      | [a, b], _ =>
        by_contra hc
        simp only [List.any_cons, List.any_nil, Bool.or_false, Bool.or_eq_true, Bool.not_eq_true', not_or] at hc
        simp only [List.contains_eq_mem, decide_eq_false_iff_not, not_not, List.mem_cons, List.not_mem_nil, or_false] at hc
        obtain ⟨c1, c2, c3⟩ := hc
        rcases c1 with c1 | c1 <;> rcases c2 with c2 | c2 <;> rcases c3 with c3 | c3 <;>
          first
            | exact absurd (c1.trans c2.symm) (by decide)
            | exact absurd (c1.trans c3.symm) (by decide)
            | exact absurd (c2.trans c3.symm) (by decide)
  have hinv : ∀ M : Matrix o o ℂ, inverse M ≠ .error .value := by
    intro M; unfold inverse; cases invert M <;> simp
  have hb : ∀ (M : Matrix o o ℂ) (f : Matrix o o ℂ → Except Err (Matrix o o ℂ)), (∀ N, f N ≠ .error .value) →
      (inverse M >>= f) ≠ .error .value := by
    intro M f hf
    cases h : inverse M with
    | error e => intro h2; exact hinv M (h.trans (by simpa [bind, Except.bind] using h2))
    | ok N => simpa [bind, Except.bind] using hf N
  rw [← hacc]
  unfold dyson
  by_cases h : accepted (args.map Prod.fst) = true
  · simp only [h, Bool.not_true, Bool.false_eq_true, if_false, iff_true]
    split
    · exact hb _ _ fun N => hinv _
    · split
      · exact hb _ _ fun N => hinv _
      · exact hb _ _ fun N => hb _ _ fun N' => by simp
  · simp [h]

/-- C135: `delta` of a non-interacting function gives its hybridisation, if the fit gives the local energies as the constant
of the tail. -/
theorem C135_delta {n : ℕ} (z : Fin n → ℂ) (fit : (Fin n → Matrix o o ℂ) → Matrix o o ℂ) (eps : Matrix o o ℂ)
    (D : Fin n → Matrix o o ℂ) (hu : ∀ i, IsUnit (z i • (1 : Matrix o o ℂ) - eps - D i).det)
    (hfit : fit (fun i => eps + D i) = eps) :
    delta z fit (fun i => (z i • (1 : Matrix o o ℂ) - eps - D i)⁻¹) = .ok D := by
  unfold delta
  rw [if_pos (fun i => isUnit_nonsing_inv_det _ (hu i))]
  have h : (fun i => z i • (1 : Matrix o o ℂ) - ((z i • (1 : Matrix o o ℂ) - eps - D i)⁻¹)⁻¹) = fun i => eps + D i := by
    funext i
    rw [nonsing_inv_nonsing_inv _ (hu i)]; abel
  show Except.ok (fun i => (fun i => z i • (1 : Matrix o o ℂ) - ((z i • (1 : Matrix o o ℂ) - eps - D i)⁻¹)⁻¹) i - fit _) = _
  rw [h, hfit]
  congr 1
  funext i
  show eps + D i - eps = D i
  abel

/-- C135: the other way round: with the constant that was taken off, the hybridisation gives back the function. -/
theorem C135_delta_back {n : ℕ} (z : Fin n → ℂ) (fit : (Fin n → Matrix o o ℂ) → Matrix o o ℂ) (g D : Fin n → Matrix o o ℂ)
    (h : delta z fit g = .ok D) (i : Fin n) :
    g i = (z i • (1 : Matrix o o ℂ) - fit (fun i => z i • (1 : Matrix o o ℂ) - (g i)⁻¹) - D i)⁻¹ := by
  unfold delta at h
  split at h
  · rename_i hu
    cases h
    simp only
    rw [show ∀ a b c : Matrix o o ℂ, a - b - (a - c - b) = c by intros; abel, nonsing_inv_nonsing_inv _ (hu i)]
  · cases h

/-! ### Examples -/

/-- `G0 = 1/2`, `Σ = 1` give `G = 1`, and `G`, `Σ` give `G0` -/
example : dyson (o := Fin 1) [("G0_iw", !![1/2]), ("Sigma_iw", !![1])] = .ok !![1] ∧
    dyson (o := Fin 1) [("G_iw", !![1]), ("Sigma_iw", !![1])] = .ok !![1/2] := by
  have h0 : IsUnit (!![(1 : ℂ)/2] : Matrix (Fin 1) (Fin 1) ℂ).det := by simp
  have h : dyson (o := Fin 1) [("G0_iw", !![1/2]), ("Sigma_iw", !![1])] = .ok !![1] := by
    rw [C135_equation _ _ _ h0]
    ext i j; fin_cases i; fin_cases j
    norm_num [Matrix.mul_apply]
  exact ⟨h, (C135_consistent _ _ _).2.1 h⟩

/-- `G0 = Σ = 1` has no solution -/
example : ¬ ∃ G, dyson (o := Fin 1) [("G0_iw", 1), ("Sigma_iw", 1)] = .ok G := by
  rintro ⟨G, h⟩
  rw [C135_equation _ _ _ (by simp)] at h
  have := congrFun (congrFun h 0) 0
  simp at this

/-- three functions, one function, or a misspelt name are refused -/
example : dyson (o := Fin 1) [("G0_iw", 1), ("G_iw", 1), ("Sigma_iw", 1)] = .error .value ∧
    dyson (o := Fin 1) [("G0_iw", 1)] = .error .value ∧ dyson (o := Fin 1) [("G0_iw", 1), ("G0", 1)] = .error .value :=
  ⟨rfl, rfl, rfl⟩

/-- a level with a hybridisation: the function is `1/(z - e - D(z))` at two points -/
example : delta (o := Fin 1) ![Complex.I, -Complex.I] (fun _ => !![3])
    (fun i => ((![Complex.I, -Complex.I] i) • (1 : Matrix (Fin 1) (Fin 1) ℂ) - !![3] - !![5])⁻¹) = .ok (fun _ => !![5]) := by
  refine C135_delta _ _ _ _ (fun i => ?_) rfl
  rw [isUnit_iff_ne_zero]
  fin_cases i <;> simp [Complex.ext_iff] <;> norm_num

end Verif.Dyson
