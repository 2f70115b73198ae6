import Verif.Proofs.QPInf

/-! # QP solver: termination and exit codes -/

set_option linter.unusedSectionVars false

namespace Verif.QP

open Matrix Verif.QPSpec

variable {F : Type*} [Field F] [LinearOrder F] [IsStrictOrderedRing F] {n m : ℕ}

/-- The scaling step is defined. -/
theorem chosenScaling_some (env : Env F n) (prm : Params F) (p : Pbm F n m)
    (h : prm.scaling = true → n ≠ 0 ∧ m ≠ 0) : ∃ s, chosenScaling env prm p = some s := by
  unfold chosenScaling
  split
  · rename_i hs
    unfold scale
    rw [if_neg]
    · exact ⟨_, rfl⟩
    · have := h hs; omega
  · exact ⟨_, rfl⟩

theorem solveScaled_of_loop {env : Env F n} {prm : Params F} {p : Pbm F n m} {s : Scaling F n m}
    {ws : Option ((Fin n → F) × (Fin m → F))} {fuel k : ℕ} {r : Option Status}
    (h : loop env prm p s (step prm.alpha prm.sigma p s (rhoVec prm p s) (prepare env prm p s).1) fuel 0
        (prepare env prm p s).2 (iterates prm p s (prepare env prm p s).1 ws 0) =
          .ok (k, r, iterates prm p s (prepare env prm p s).1 ws k)) :
    solveScaled env prm p s ws fuel = conclude env prm p s k r (iterates prm p s (prepare env prm p s).1 ws k) := by
  rw [solveScaled_eq, h]

/-- A bound on the run gives a result for every sufficient fuel. -/
theorem solveScaled_ends {env : Env F n} {prm : Params F} {p : Pbm F n m} {s : Scaling F n m}
    {ws : Option ((Fin n → F) × (Fin m → F))} {e : ℕ} (hsc : prm.stopCheckIter ≠ 0)
    (he : prm.maxIter = some e ∨ (0 < e ∧ verdict env prm p s (iterates prm p s (prepare env prm p s).1 ws) (e - 1) ≠ none))
    {fuel : ℕ} (hf : e + 1 ≤ fuel) :
    ∃ sol, solveScaled env prm p s ws fuel = .ok sol ∧ sol.iter ≤ e := by
  obtain ⟨k, r, h1, h2⟩ := loop_ends (t := iterates prm p s (prepare env prm p s).1 ws) (iterates_succ prm p s _ ws) hsc he
    (Nat.zero_le _) (by rcases he with h | h; exact Or.inr h; exact Or.inl h.1) (prepare env prm p s).2 fuel (by omega)
  obtain ⟨sol, hsol⟩ := conclude_total env prm p s k r (iterates prm p s (prepare env prm p s).1 ws k)
  refine ⟨sol, ?_, ?_⟩
  · rw [solveScaled_of_loop h1, hsol]
  · rw [(conclude_code hsol).2.1]; exact h2

/-- A preset code ends the run at once. -/
theorem solveScaled_preset {env : Env F n} {prm : Params F} {p : Pbm F n m} {s : Scaling F n m}
    {ws : Option ((Fin n → F) × (Fin m → F))} {c : Status} (h : (prepare env prm p s).2 = some c)
    {fuel : ℕ} (hf : 1 ≤ fuel) : ∃ sol, solveScaled env prm p s ws fuel = .ok sol ∧ sol.iter = 0 ∧ sol.code = c := by
  obtain ⟨fuel, rfl⟩ : ∃ k, fuel = k + 1 := ⟨fuel - 1, by omega⟩
  have h1 : loop env prm p s (step prm.alpha prm.sigma p s (rhoVec prm p s) (prepare env prm p s).1) (fuel + 1) 0
        (prepare env prm p s).2 (iterates prm p s (prepare env prm p s).1 ws 0) =
          .ok (0, some c, iterates prm p s (prepare env prm p s).1 ws 0) := by
    rw [loop, if_neg (by rw [h]; simp), h]
  obtain ⟨sol, hsol⟩ := conclude_total env prm p s 0 (some c) (iterates prm p s (prepare env prm p s).1 ws 0)
  refine ⟨sol, ?_, ?_, ?_⟩
  · rw [solveScaled_of_loop h1, hsol]
  · exact (conclude_code hsol).2.1
  · exact (conclude_code hsol).1

theorem precheck_iff {p : Pbm F n m} : precheck p = some .primalInfeasible ↔ ∃ i, emptyRow (p.l i) (p.u i) = true := by
  unfold precheck
  constructor
  · intro h
    split at h
    · rename_i h'
      obtain ⟨i, -, hi⟩ := List.any_eq_true.1 h'
      exact ⟨i, hi⟩
    · cases h
  · rintro ⟨i, hi⟩
    rw [if_pos (List.any_eq_true.2 ⟨i, List.mem_finRange i, hi⟩)]

theorem emptyRow_iff {l u : Ext F} : emptyRow l u = true ↔ l = .pos ∨ u = .neg ∨ ∃ a b, l = .fin a ∧ u = .fin b ∧ b < a := by
  cases l <;> cases u <;> simp [emptyRow]

/-- Where a code can come from. -/
theorem run_code {env : Env F n} {prm : Params F} {p : Pbm F n m} {s : Scaling F n m}
    {ws : Option ((Fin n → F) × (Fin m → F))} {k : ℕ} {r : Option Status} (h : RunFacts env prm p s ws k r) :
    (r = some .unknown ∧ k = 0 ∧ env.factor m (kkt prm.sigma p s (rhoVec prm p s)) = none) ∨
    (env.factor m (kkt prm.sigma p s (rhoVec prm p s)) ≠ none ∧
      ((r = some .primalInfeasible ∧ k = 0 ∧ precheck p = some .primalInfeasible) ∨
       (r = none ∧ prm.maxIter = some k) ∨
       (precheck p = none ∧ ∃ k', k = k' + 1 ∧ k' % prm.stopCheckIter = 1 ∧ ∃ c, r = some c ∧
        check env prm p s k' (iterates prm p s (prepare env prm p s).1 ws k')
          (iterates prm p s (prepare env prm p s).1 ws (k' + 1)) = some c))) := by
  rcases prepare_cases env prm p s with ⟨h1, h2⟩ | ⟨slv, h1, h2⟩
  · left
    rcases h.cases with ⟨h3, h4, _⟩ | ⟨_, h3, _⟩
    · exact ⟨by rw [h4, h2], h3, h1⟩
    · rw [h2] at h3; cases h3
  · right
    refine ⟨by rw [h1]; simp, ?_⟩
    rcases h.cases with ⟨h3, h4, h5⟩ | ⟨h3, h4, h5, h6, h7, h8⟩
    · rw [h2] at h4
      simp only at h4
      cases hp : precheck p with
      | none =>
        rw [hp] at h4
        rcases h5 with h5 | h5
        · exact absurd h4 h5
        · exact Or.inr (Or.inl ⟨h4, by rw [h3, h5]⟩)
      | some c =>
        have := precheck_code hp
        subst this
        exact Or.inl ⟨by rw [h4, hp], h3, rfl⟩
    · rcases hr : r with _ | c
      · right; left
        rcases h7 with h7 | h7
        · exact absurd hr h7
        · exact ⟨rfl, h7⟩
      · right; right
        refine ⟨(prepare_none h4).1, k - 1, by omega, ?_, c, rfl, ?_⟩
        · rw [hr] at h6
          unfold verdict at h6
          split at h6
          · assumption
          · cases h6
        · rw [hr] at h6
          unfold verdict at h6
          split at h6
          · exact h6.symm
          · cases h6

end Verif.QP
