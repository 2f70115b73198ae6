import Verif.Props.QPIndefinite
import Verif.Props.QPAlways
import Verif.Model.Snippets

/-! # The quadratic program of the snippets (C132) -/

namespace Verif.Snippets

open Matrix Verif.QP Verif.QPSpec

/-! ## What holds -/

/-- **C132, crossed bounds.** The bounds are drawn independently. If those of one row cross then the snippet reports `PrimalInfeasible` without an iteration, whatever else was drawn. -/
theorem qp_snippet_crossed {F : Type*} [Field F] [LinearOrder F] [IsStrictOrderedRing F] (env : Env F 5) (fuel : ℕ) (P : Matrix (Fin 5) (Fin 5) F) (q : Fin 5 → F)
    (A : Matrix (Fin 10) (Fin 5) F) (l u : Fin 10 → F)
    (hf : ∀ s, env.factor 10 (kkt Params.default.sigma (qpDraw P q A l u) s (rhoVec Params.default (qpDraw P q A l u) s)) ≠ none)
    (hfuel : 1 ≤ fuel) (i : Fin 10) (hi : u i < l i) :
    ∃ sol, qpSnippet env fuel P q A l u = .ok sol ∧ sol.code = .primalInfeasible ∧ sol.iter = 0 ∧ ¬∃ x, Feasible (qpDraw P q A l u) x := by
  obtain ⟨sol, h1, h2, h3⟩ := qp_empty_row_infeasible (env := env) (prm := Params.default) (p := qpDraw P q A l u) (ws := none) (fuel := fuel)
    (fun _ => ⟨by norm_num, by norm_num⟩) hf (i := i) (by simpa [qpDraw, TriviallyEmpty] using hi) hfuel
  refine ⟨sol, h1, h2, h3, fun ⟨x, hx⟩ => ?_⟩
  have := hx i
  exact absurd (le_trans this.1 this.2) (not_le.mpr hi)

/-- **C132, partial.** If the drawn matrix is symmetric and positive semidefinite then the snippet returns. Missing: other matrices (`qp_snippet_wrong`). -/
theorem qp_snippet_partial (env : Env ℝ 5) (hsq : SqrtPos env) (hl : LdltOk env) (P : Matrix (Fin 5) (Fin 5) ℝ) (hP : Lin.PSD P) (q : Fin 5 → ℝ)
    (A : Matrix (Fin 10) (Fin 5) ℝ) (l u : Fin 10 → ℝ)
    (hf : ∀ s : Scaling ℝ 5 10, s.Pos → env.factor 10 (kkt Params.default.sigma (qpDraw P q A l u) s (rhoVec Params.default (qpDraw P q A l u) s)) ≠ none) :
    ∃ N, ∀ fuel, N ≤ fuel → ∃ sol, qpSnippet env fuel P q A l u = .ok sol :=
  qp_always_returns_bounds (p := qpDraw P q A l u) (prm := Params.default) (ws := none) hsq hl hP (by norm_num [Params.default]) (by norm_num [Params.default])
    (by norm_num [Params.default]) (by norm_num [Params.default]) (by norm_num [Params.default]) (by norm_num [Params.default]) (by norm_num [Params.default])
    (by norm_num [Params.default]) (by norm_num [Params.default]) (fun _ => ⟨by norm_num, by norm_num⟩) hf (Or.inr fun i => Or.inl (by simp [qpDraw]))

/-! ## What does not hold -/

/-- A draw: all entries lie between -1 and 1. -/
def drawA : Matrix (Fin 10) (Fin 5) ℝ := fun i j => if i.val = j.val then 1 else 0

/-- The program of the draw: minimise `-x'x/2` subject to `-1 ≤ x ≤ 1` and five rows of zeros. -/
abbrev concave : Pbm ℝ 5 10 := qpDraw (-1) 0 drawA (fun _ => -1) (fun _ => 1)

theorem drawA_mul (v : Fin 5 → ℝ) (i : Fin 10) : (drawA *ᵥ v) i = if h : i.val < 5 then v ⟨i, h⟩ else 0 := by
  simp only [Matrix.mulVec, dotProduct, drawA]
  split_ifs with h
  · rw [Finset.sum_eq_single ⟨i, h⟩]
    · simp
    · intro b _ hb
      rw [if_neg (fun e => hb (Fin.ext e.symm)), zero_mul]
    · simp
  · exact Finset.sum_eq_zero fun b _ => by rw [if_neg (by omega), zero_mul]

theorem drawA_tmul (w : Fin 10 → ℝ) (j : Fin 5) : (drawAᵀ *ᵥ w) j = w (Fin.castLE (by norm_num) j) := by
  simp only [Matrix.mulVec, dotProduct, Matrix.transpose_apply, drawA]
  rw [Finset.sum_eq_single (Fin.castLE (by norm_num) j)]
  · simp
  · intro b _ hb
    have : ¬(b.val = j.val) := fun e => hb (Fin.ext e)
    rw [if_neg this, zero_mul]
  · simp

theorem norm_one_of {k : ℕ} {v : Fin k → ℝ} (h : ∀ i, |v i| ≤ 1) (i : Fin k) (hi : |v i| = 1) : QP.norm v = 1 :=
  le_antisymm (norm_le zero_le_one h) (hi ▸ (norm_isMaxNorm v).2.1 i)

theorem concave_scaling : scale Real.sqrt concave = some ⟨1, fun _ => 1, fun _ => 1⟩ := by
  have hP : ∀ j, QP.norm (fun i => (-1 : Matrix (Fin 5) (Fin 5) ℝ) i j) = 1 := fun j => by
    refine norm_one_of (fun i => ?_) j (by simp)
    by_cases h : i = j
    · simp [h]
    · simp [Matrix.one_apply_ne h]
  have hA : ∀ j, QP.norm (fun i => drawA i j) = 1 := fun j => by
    refine norm_one_of (fun i => ?_) (Fin.castLE (by norm_num) j) (by simp [drawA])
    unfold drawA
    split_ifs <;> simp
  have hr : ∀ i, nz (QP.norm (fun j => drawA i j)) = 1 := fun i => by
    by_cases h : i.val < 5
    · rw [norm_one_of (v := fun j => drawA i j) (fun j => ?_) ⟨i, h⟩ (by simp [drawA])]
      · simp [nz]
      · unfold drawA
        split_ifs <;> simp
    · have : (fun j => drawA i j) = 0 := by
        funext j
        simp only [drawA, Pi.zero_apply]
        rw [if_neg (by omega)]
      rw [this, QP.norm_zero]
      simp [nz]
  have hc : costScale concave = 1 := by
    have : ∀ j, costInc concave j = 1 := fun j => by
      change nz (QP.norm fun i => (-1 : Matrix (Fin 5) (Fin 5) ℝ) i j) = 1
      rw [hP]; simp [nz]
    unfold costScale
    simp only [this]
    change 1 / max _ (QP.norm (0 : Fin 5 → ℝ)) = 1
    rw [QP.norm_zero]
    norm_num
  have h1 : ∀ j, sxInc concave ⟨1, fun _ => 1, fun _ => 1⟩ j = 1 := fun j => by
    simp only [sxInc, one_mul]
    change nz (max (QP.norm fun i => (-1 : Matrix (Fin 5) (Fin 5) ℝ) i j) (QP.norm fun i => drawA i j)) = 1
    rw [hP, hA]; simp [nz]
  have h2 : ∀ i, syInc concave ⟨1, fun _ => 1, fun _ => 1⟩ i = 1 := fun i => by
    simp only [syInc, one_mul]
    exact hr i
  have h3 : incFactor Real.sqrt 1 = 1 := by
    unfold incFactor
    rw [max_eq_left (by norm_num)]
    simp
  have hround : scaleRound Real.sqrt concave ⟨1, fun _ => 1, fun _ => 1⟩ = ⟨1, fun _ => 1, fun _ => 1⟩ := by
    simp only [scaleRound, h1, h2, h3, one_mul]
  unfold scale
  rw [if_neg (by norm_num), hc]
  unfold scaleLoop
  rw [if_neg, hround]
  simp only [h1, h2, sub_self]
  change ¬(1 / 10 < max (QP.norm (0 : Fin 5 → ℝ)) (QP.norm (0 : Fin 10 → ℝ)))
  rw [QP.norm_zero, QP.norm_zero]
  norm_num

theorem concave_factor (s : Scaling ℝ 5 10) (hs : chosenScaling (realEnv 5) Params.default concave = some s) :
    (realEnv 5).factor 10 (kkt Params.default.sigma concave s (rhoVec Params.default concave s)) ≠ none := by
  have hs' : s = ⟨1, fun _ => 1, fun _ => 1⟩ := by
    have : chosenScaling (realEnv 5) Params.default concave = scale Real.sqrt concave := rfl
    rw [this, concave_scaling] at hs
    exact (Option.some.inj hs).symm
  subst hs'
  have hsym : concave.P.IsSymm := by
    change (-1 : Matrix (Fin 5) (Fin 5) ℝ)ᵀ = -1
    simp
  have hrho : ∀ i, rhoVec (Params.default : Params ℝ) concave ⟨1, fun _ => 1, fun _ => 1⟩ i = 1 / 10 := fun i => by
    simp only [rhoVec, rhoOf, qpDraw, Params.default]
    rw [if_neg (by norm_num)]
  have hu : IsUnit (symUpper (kkt Params.default.sigma concave ⟨1, fun _ => 1, fun _ => 1⟩ (rhoVec Params.default concave ⟨1, fun _ => 1, fun _ => 1⟩))).det := by
    rw [← Matrix.isUnit_iff_isUnit_det, ← Matrix.mulVec_injective_iff_isUnit]
    intro v w h
    simp only at h
    have h0 : symUpper (kkt Params.default.sigma concave ⟨1, fun _ => 1, fun _ => 1⟩ (rhoVec Params.default concave ⟨1, fun _ => 1, fun _ => 1⟩)) *ᵥ (v - w) = 0 := by
      rw [Matrix.mulVec_sub, h, sub_self]
    refine sub_eq_zero.1 ?_
    generalize v - w = d at h0
    have e1 : ∀ j, -d (.inl j) + 1 / 1000000 * d (.inl j) + d (.inr (Fin.castLE (by norm_num) j)) = 0 := fun j => by
      have := kkt_mulVec_inl (sigma := Params.default.sigma) (s := ⟨1, fun _ => 1, fun _ => 1⟩) (rho := rhoVec Params.default concave ⟨1, fun _ => 1, fun _ => 1⟩) hsym d j
      rw [h0] at this
      have gx : ((⟨1, fun _ => 1, fun _ => 1⟩ : Scaling ℝ 5 10).unX (fun i => d (.inl i)) : Fin 5 → ℝ) = fun i => d (.inl i) := by funext i; simp [Scaling.unX]
      simp only [one_mul, gx] at this
      have g : (concave.Aᵀ *ᵥ fun i => d (.inr i)) j = _ := drawA_tmul _ j
      rw [g] at this
      have g2 : (concave.P *ᵥ fun i => d (.inl i)) j = -d (.inl j) := by
        change ((-1 : Matrix (Fin 5) (Fin 5) ℝ) *ᵥ _) j = _
        simp [Matrix.neg_mulVec]
      rw [g2] at this
      exact this.symm
    have e2 : ∀ i : Fin 10, (if h : i.val < 5 then d (.inl ⟨i, h⟩) else 0) - (1 / 10 : ℝ)⁻¹ * d (.inr i) = 0 := fun i => by
      have := kkt_mulVec_inr (sigma := Params.default.sigma) (p := concave) (s := ⟨1, fun _ => 1, fun _ => 1⟩) (rho := rhoVec Params.default concave ⟨1, fun _ => 1, fun _ => 1⟩) d i
      rw [h0, hrho] at this
      have gx : ((⟨1, fun _ => 1, fun _ => 1⟩ : Scaling ℝ 5 10).unX (fun i => d (.inl i)) : Fin 5 → ℝ) = fun i => d (.inl i) := by funext i; simp [Scaling.unX]
      simp only [one_mul, gx] at this
      have g : (concave.A *ᵥ fun i => d (.inl i)) i = _ := drawA_mul _ i
      rw [g] at this
      exact this.symm
    have e3 : ∀ j, d (.inl j) = 0 := fun j => by
      have a := e1 j
      have b := e2 (Fin.castLE (by norm_num) j)
      rw [dif_pos (by simp)] at b
      simp only [Fin.val_castLE, Fin.eta] at b
      norm_num at b
      linarith
    funext a
    rcases a with j | i
    · exact e3 j
    · have b := e2 i
      have : (if h : i.val < 5 then d (.inl ⟨i, h⟩) else 0) = 0 := by
        split_ifs with h
        · exact e3 _
        · rfl
      rw [this] at b
      norm_num at b
      exact b
  simp only [realEnv]
  rw [if_pos hu]
  exact Option.some_ne_none _

/-- **C132, false in general.** For a draw that is not convex the snippet reports `Optimal` and the point that it returns is the worst one of the box: every feasible point costs at most as much, and
a corner of the box costs less. -/
theorem qp_snippet_wrong (fuel : ℕ) (hfuel : 3 ≤ fuel) : ∃ sol, qpSnippet (realEnv 5) fuel (-1) 0 drawA (fun _ => -1) (fun _ => 1) = .ok sol ∧ sol.code = .optimal ∧
    Feasible concave sol.primal ∧ (∀ w, Feasible concave w → cost concave w ≤ cost concave sol.primal) ∧ ¬Minimiser concave sol.primal := by
  have hcost : ∀ w, cost concave w = -(w ⬝ᵥ w) / 2 := fun w => by
    change w ⬝ᵥ (-1 : Matrix (Fin 5) (Fin 5) ℝ) *ᵥ w / 2 + (0 : Fin 5 → ℝ) ⬝ᵥ w = _
    simp [Matrix.neg_mulVec]
  have h0 : Feasible concave 0 := fun i => by
    rw [Matrix.mulVec_zero]
    exact ⟨by simp [qpDraw, lower], by simp [qpDraw, upper]⟩
  refine ⟨⟨.optimal, 2, 0, 0, 0⟩, qp_zero_any (realEnv 5) Params.default concave fuel (realEnv_sqrt 5) (realEnv_zero 5) (by simp [realEnv]) rfl h0
    (by norm_num [Params.default]) (by norm_num [Params.default]) (by norm_num [Params.default]) (fun e h => by simp [Params.default] at h)
    (fun _ => ⟨by norm_num, by norm_num⟩) concave_factor hfuel, rfl, h0, fun w _ => ?_, fun h => ?_⟩
  · rw [hcost, hcost, zero_dotProduct]
    have : 0 ≤ w ⬝ᵥ w := Finset.sum_nonneg fun i _ => mul_self_nonneg _
    linarith
  · have h1 : Feasible concave (fun _ => 1) := fun i => by
      have : (concave.A *ᵥ fun _ => 1) i = _ := drawA_mul _ i
      rw [this]
      split_ifs <;> exact ⟨by simp [qpDraw, lower], by simp [qpDraw, upper]⟩
    have := h.2 _ h1
    rw [hcost, hcost, zero_dotProduct] at this
    simp [dotProduct] at this
    norm_num at this

/-! ## The hypotheses are met -/

/-- The program with the opposite sign is convex: the snippet returns. -/
example (q : Fin 5 → ℝ) : ∃ N, ∀ fuel, N ≤ fuel → ∃ sol, qpSnippet (realEnv 5) fuel 1 q drawA (fun _ => -1) (fun _ => 1) = .ok sol := by
  have hP : Lin.PSD (1 : Matrix (Fin 5) (Fin 5) ℝ) := ⟨by simp [Matrix.IsSymm], fun v => by
    rw [Matrix.one_mulVec]; exact Finset.sum_nonneg fun i _ => mul_self_nonneg _⟩
  exact qp_snippet_partial _ (realEnv_sqrt 5) (realEnv_ldlt 5) _ hP _ _ _ _ fun s hs =>
    realEnv_finds 5 Params.default (by norm_num [Params.default]) (by norm_num [Params.default]) 10 _ hP s hs

/-- The factorisation that never fails, for crossed bounds; the pivots of the program are not used. -/
example : ∃ sol, qpSnippet (⟨id, 0, fun _ _ => some id, 0, fun _ => 0⟩ : Env ℚ 5) 1 (-1) 0 0 (fun i => if i = 3 then 1 else 0) (fun _ => 1 / 2) = .ok sol ∧ sol.code = .primalInfeasible ∧
    sol.iter = 0 ∧ ¬∃ x, Feasible (qpDraw (-1) 0 0 (fun i => if i = 3 then 1 else 0) (fun _ => 1 / 2 : Fin 10 → ℚ)) x :=
  qp_snippet_crossed _ _ _ _ _ _ _ (fun _ => Option.some_ne_none _) le_rfl 3 (by norm_num)

end Verif.Snippets
