import Verif.Proofs.QPBasic

/-! # QP solver: scaling factors, structure of `solve` -/

set_option linter.unusedSectionVars false

namespace Verif.QP

open Matrix Verif.QPSpec

variable {F : Type*} [Field F] [LinearOrder F] [IsStrictOrderedRing F] {n m : ℕ}

/-- Assumption on `std::sqrt`: positive on positive arguments. -/
def SqrtPos (env : Env F n) : Prop := ∀ a, 0 < a → 0 < env.sqrt a

/-- All scale factors are positive. -/
def Scaling.Pos (s : Scaling F n m) : Prop := 0 < s.c ∧ (∀ j, 0 < s.sx j) ∧ ∀ i, 0 < s.sy i

theorem Scaling.unit_pos : (Scaling.unit : Scaling F n m).Pos := by simp [Scaling.Pos, Scaling.unit]

theorem costScale_pos (p : Pbm F n m) : 0 < costScale p := by
  unfold costScale
  refine div_pos one_pos ?_
  have : (0 : F) < 1 / 1000000 := by norm_num
  exact lt_of_lt_of_le this (le_trans (le_max_left _ _) (le_max_left _ _))

theorem incFactor_pos {env : Env F n} (h : SqrtPos env) (a : F) : 0 < incFactor env.sqrt a := by
  unfold incFactor
  refine h _ (div_pos one_pos ?_)
  have : (0 : F) < 1 / 100000000 := by norm_num
  exact lt_of_lt_of_le this (le_max_right _ _)

theorem scaleRound_pos {env : Env F n} (h : SqrtPos env) {p : Pbm F n m} {s : Scaling F n m} (hs : s.Pos) :
    (scaleRound env.sqrt p s).Pos :=
  ⟨hs.1, fun j => mul_pos (incFactor_pos h _) (hs.2.1 j), fun i => mul_pos (incFactor_pos h _) (hs.2.2 i)⟩

theorem scaleLoop_pos {env : Env F n} (h : SqrtPos env) {p : Pbm F n m} (r : ℕ) {s : Scaling F n m} (hs : s.Pos) :
    (scaleLoop env.sqrt p r s).Pos := by
  induction r generalizing s with
  | zero => exact scaleRound_pos h hs
  | succ r ih =>
    rw [scaleLoop]
    split
    · exact ih (scaleRound_pos h hs)
    · exact scaleRound_pos h hs

theorem scale_pos {env : Env F n} (h : SqrtPos env) {p : Pbm F n m} {s : Scaling F n m} (hs : scale env.sqrt p = some s) :
    s.Pos := by
  unfold scale at hs
  split at hs
  · cases hs
  · cases hs
    exact scaleLoop_pos h 10 ⟨costScale_pos p, fun _ => one_pos, fun _ => one_pos⟩

/-- The scaling with which `solve_qp` works. -/
def chosenScaling (env : Env F n) (prm : Params F) (p : Pbm F n m) : Option (Scaling F n m) :=
  if prm.scaling then scale env.sqrt p else some Scaling.unit

theorem chosenScaling_pos {env : Env F n} (h : SqrtPos env) {prm : Params F} {p : Pbm F n m} {s : Scaling F n m}
    (hs : chosenScaling env prm p = some s) : s.Pos := by
  unfold chosenScaling at hs
  split at hs
  · exact scale_pos h hs
  · cases hs; exact Scaling.unit_pos

theorem solveQP_eq {env : Env F n} {prm : Params F} {p : Pbm F n m} {ws : Option ((Fin n → F) × (Fin m → F))} {fuel : ℕ} :
    solveQP env prm p ws fuel = match chosenScaling env prm p with
      | none => .undef
      | some s => solveScaled env prm p s ws fuel := by
  unfold solveQP solve chosenScaling
  generalize (if prm.scaling = true then scale env.sqrt p else some Scaling.unit) = o
  cases o with
  | none => rfl
  | some s =>
    simp only
    cases solveScaled env prm p s ws fuel <;> rfl

theorem solveQP_ok {env : Env F n} {prm : Params F} {p : Pbm F n m} {ws : Option ((Fin n → F) × (Fin m → F))} {fuel : ℕ}
    {sol : Sol F n m} (h : solveQP env prm p ws fuel = .ok sol) :
    ∃ s, chosenScaling env prm p = some s ∧ solveScaled env prm p s ws fuel = .ok sol := by
  rw [solveQP_eq] at h
  split at h
  · cases h
  · rename_i s hs
    exact ⟨s, hs, h⟩

/-- The iterates of a run. -/
def iterates (prm : Params F) (p : Pbm F n m) (s : Scaling F n m) (slv : (Fin n ⊕ Fin m → F) → (Fin n ⊕ Fin m → F))
    (ws : Option ((Fin n → F) × (Fin m → F))) (i : ℕ) : It F n m :=
  (step prm.alpha prm.sigma p s (rhoVec prm p s) slv)^[i] (start p s ws)

theorem iterates_succ (prm : Params F) (p : Pbm F n m) (s : Scaling F n m) (slv : (Fin n ⊕ Fin m → F) → (Fin n ⊕ Fin m → F))
    (ws : Option ((Fin n → F) × (Fin m → F))) (i : ℕ) :
    iterates prm p s slv ws (i + 1) = step prm.alpha prm.sigma p s (rhoVec prm p s) slv (iterates prm p s slv ws i) :=
  Function.iterate_succ_apply' _ _ _

theorem solveScaled_eq {env : Env F n} {prm : Params F} {p : Pbm F n m} {s : Scaling F n m}
    {ws : Option ((Fin n → F) × (Fin m → F))} {fuel : ℕ} :
    solveScaled env prm p s ws fuel =
      match loop env prm p s (step prm.alpha prm.sigma p s (rhoVec prm p s) (prepare env prm p s).1) fuel 0
        (prepare env prm p s).2 (iterates prm p s (prepare env prm p s).1 ws 0) with
      | .ok (iter, ret, it) => conclude env prm p s iter ret it
      | .undef => .undef
      | .timeout => .timeout := by
  rfl

theorem solveScaled_ok {env : Env F n} {prm : Params F} {p : Pbm F n m} {s : Scaling F n m}
    {ws : Option ((Fin n → F) × (Fin m → F))} {fuel : ℕ} {sol : Sol F n m} (h : solveScaled env prm p s ws fuel = .ok sol) :
    ∃ k r, loop env prm p s (step prm.alpha prm.sigma p s (rhoVec prm p s) (prepare env prm p s).1) fuel 0
        (prepare env prm p s).2 (iterates prm p s (prepare env prm p s).1 ws 0) =
          .ok (k, r, iterates prm p s (prepare env prm p s).1 ws k) ∧
      conclude env prm p s k r (iterates prm p s (prepare env prm p s).1 ws k) = .ok sol := by
  rw [solveScaled_eq] at h
  split at h
  · rename_i k r it heq
    have h1 := (loop_ok (t := iterates prm p s (prepare env prm p s).1 ws) (iterates_succ prm p s _ ws) heq).1
    subst h1
    exact ⟨k, r, heq, h⟩
  · cases h
  · cases h

/-- The code and the iteration count of the result come from the loop. -/
theorem conclude_code {env : Env F n} {prm : Params F} {p : Pbm F n m} {s : Scaling F n m} {k : ℕ} {r : Option Status}
    {it : It F n m} {sol : Sol F n m} (h : conclude env prm p s k r it = .ok sol) :
    sol.code = r.getD .maxIterations ∧ sol.iter = k ∧
    sol.objective = cost p sol.primal := by
  have key : ∀ x y, (finish p s k r x y).code = r.getD .maxIterations ∧ (finish p s k r x y).iter = k ∧
      (finish p s k r x y).objective = cost p (finish p s k r x y).primal := by
    intro x y
    refine ⟨rfl, rfl, ?_⟩
    simp only [finish, cost]
    rw [dotProduct_add, dotProduct_comm p.q]
    congr 1
    simp only [dotProduct]
    rw [Finset.sum_div]
    refine Finset.sum_congr rfl fun i _ => by ring
  unfold conclude at h
  split at h
  · split at h
    · cases h; exact key _ _
    · cases h; exact key _ _
    · cases h
    · cases h
  · cases h; exact key _ _

/-- Without polishing the result is the unscaled last iterate. -/
theorem conclude_nopolish {env : Env F n} {prm : Params F} {p : Pbm F n m} {s : Scaling F n m} {k : ℕ} {r : Option Status}
    {it : It F n m} (hp : prm.polish = false ∨ r ≠ some .optimal) :
    conclude env prm p s k r it = .ok (finish p s k r it.x it.y) := by
  unfold conclude
  rw [if_neg]
  rintro ⟨h1, h2⟩
  rcases hp with h | h
  · rw [h] at h2; cases h2
  · exact h h1

theorem check_codes {env : Env F n} {prm : Params F} {p : Pbm F n m} {s : Scaling F n m} {i : ℕ} {old new : It F n m}
    {c : Status} (h : check env prm p s i old new = some c) :
    (c = .optimal ∧ optimalTest prm p (s.unX new.x) (s.unY new.y) (s.unZ new.z) = true) ∨
    (c = .primalInfeasible ∧ primalInfTest prm p (s.unY (new.y - old.y)) = true) ∨
    (c = .dualInfeasible ∧ dualInfTest prm p (s.unX (new.x - old.x)) = true) ∨
    (c = .maxTime ∧ ∃ t, prm.maxTime = some t ∧ env.t0 + t < env.now i) := by
  unfold check at h
  split at h
  · rename_i c' hc'
    cases h
    unfold checkStopping at hc'
    split at hc'
    · rename_i ho; cases hc'; exact Or.inl ⟨rfl, ho⟩
    · split at hc'
      · rename_i ho; cases hc'; exact Or.inr (Or.inl ⟨rfl, ho⟩)
      · split at hc'
        · rename_i ho; cases hc'; exact Or.inr (Or.inr (Or.inl ⟨rfl, ho⟩))
        · cases hc'
  · split at h
    · rename_i t ht
      split at h
      · rename_i hlt; cases h; exact Or.inr (Or.inr (Or.inr ⟨rfl, t, ht, hlt⟩))
      · cases h
    · cases h

theorem precheck_code {p : Pbm F n m} {c : Status} (h : precheck p = some c) : c = .primalInfeasible := by
  unfold precheck at h
  split at h
  · cases h; rfl
  · cases h

/-- The passed optimality test, in terms of the specification. -/
theorem optimalTest_spec {prm : Params F} {p : Pbm F n m} {x : Fin n → F} {y z : Fin m → F}
    (h : optimalTest prm p x y z = true) :
    (∃ rp, Tol prm.epsAbs prm.epsRel (p.A *ᵥ x) z z rp ∧ ∀ i, |(p.A *ᵥ x) i - z i| ≤ rp) ∧
    ∃ rd, Tol prm.epsAbs prm.epsRel (p.P *ᵥ x) p.q (p.Aᵀ *ᵥ y) rd ∧
      ∀ j, |(p.P *ᵥ x) j + p.q j + (p.Aᵀ *ᵥ y) j| ≤ rd := by
  simp only [optimalTest, Bool.and_eq_true, decide_eq_true_eq] at h
  obtain ⟨h1, h2⟩ := h
  refine ⟨⟨_, ⟨_, _, _, norm_isMaxNorm _, norm_isMaxNorm _, norm_isMaxNorm _, rfl⟩, fun i => ?_⟩,
    ⟨_, ⟨_, _, _, norm_isMaxNorm _, norm_isMaxNorm _, norm_isMaxNorm _, rfl⟩, fun j => ?_⟩⟩
  · have := (le_norm (p.A *ᵥ x - z) i).trans h1
    rw [max_assoc, max_self]
    exact this
  · have := (le_norm (p.P *ᵥ x + (p.q + p.Aᵀ *ᵥ y)) j).trans h2
    rw [add_assoc]
    exact this

end Verif.QP
