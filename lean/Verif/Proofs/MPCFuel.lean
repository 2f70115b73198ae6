import Verif.Proofs.MPCSolver

/-! # More fuel does not change a result -/

set_option linter.unusedSectionVars false

namespace Verif.QP

variable {F : Type*} [Field F] [LinearOrder F] {n m : ℕ} {env : Env F n} {prm : Params F} {p : Pbm F n m}

theorem loop_fuel {s : Scaling F n m} {next : It F n m → It F n m} {fuel fuel' : ℕ} (hle : fuel ≤ fuel') (iter : ℕ) (ret : Option Status) (it : It F n m)
    {r : ℕ × Option Status × It F n m} (h : loop env prm p s next fuel iter ret it = .ok r) : loop env prm p s next fuel' iter ret it = .ok r := by
  induction fuel generalizing fuel' iter ret it with
  | zero => simp [loop] at h
  | succ fuel ih =>
    obtain ⟨f, rfl⟩ : ∃ f, fuel' = f + 1 := ⟨fuel' - 1, by omega⟩
    rw [loop] at h ⊢
    by_cases hc : prm.maxIter ≠ some iter ∧ ret = none
    · rw [if_pos hc] at h ⊢
      by_cases h0 : prm.stopCheckIter = 0
      · rw [if_pos h0] at h
        cases h
      · rw [if_neg h0] at h ⊢
        exact ih (by omega) _ _ _ h
    · rw [if_neg hc] at h ⊢
      exact h

theorem Solver.solve_fuel {o : Solver F n m} {t : Pattern n m} {ws : Option ((Fin n → F) × (Fin m → F))} {fuel fuel' : ℕ} (hle : fuel ≤ fuel')
    {r : Sol F n m × Solver F n m} (h : o.solve env prm t p ws fuel = .ok r) : o.solve env prm t p ws fuel' = .ok r := by
  unfold Solver.solve at h ⊢
  split at h
  · cases h
  · rename_i s hs
    dsimp only at h ⊢
    split_ifs at h ⊢ with han
    split at h
    · rename_i iter ret it hl
      rw [loop_fuel hle _ _ _ hl]
      exact h
    · cases h
    · cases h

end Verif.QP

namespace Verif.MPC

open Verif.OQP

variable {T σ X U : Type*} {nx nu ncr : ℕ} {env : (n : ℕ) → QP.Env ℝ n} {prm : QP.Params ℝ} {fuel fuel' : ℕ}

theorem qpObject_fuel (hle : fuel ≤ fuel') {qp : QPD ℝ} {warm : Option (QSol ℝ)} {s : QState ℝ} {r} (h : (qpObject env prm fuel).solve qp warm s = some r) :
    (qpObject env prm fuel').solve qp warm s = some r := by
  simp only [qpObject] at h ⊢
  split_ifs at h ⊢
  split at h
  · rename_i q hq
    rw [QP.Solver.solve_fuel hle hq]
    exact h
  · cases h
  · cases h

/-- The surroundings with the modelled solver. -/
noncomputable abbrev Sys.real (sys : Sys T ℝ σ X U nx nu) (env : (n : ℕ) → QP.Env ℝ n) (prm : QP.Params ℝ) (fuel : ℕ) : Sys T ℝ (QState ℝ) X U nx nu :=
  sys.withSolver (qpObject env prm fuel)

theorem step_fuel (sys : Sys T ℝ σ X U nx nu) (hle : fuel ≤ fuel') (w : World T ℝ (QState ℝ) X U nx nu ncr) (op : Op T ℝ X U nx nu ncr) {r}
    (h : w.step (sys.real env prm fuel) op = some r) : w.step (sys.real env prm fuel') op = some r := by
  cases op with
  | call i t x =>
    simp only [World.step] at h ⊢
    obtain ⟨o, ho, h⟩ := Option.bind_eq_some_iff.mp h
    obtain ⟨xc, hxc, h⟩ := Option.bind_eq_some_iff.mp h
    obtain ⟨uc, huc, h⟩ := Option.bind_eq_some_iff.mp h
    obtain ⟨q, hq, rfl⟩ := Option.map_eq_some_iff.mp h
    rw [ho, Option.bind_some, hxc, Option.bind_some, huc, Option.bind_some]
    have : o.call (sys.real env prm fuel') xc uc t x = some q := by
      unfold Obj.call at hq ⊢
      dsimp only at hq ⊢
      obtain ⟨o2, e2, hq⟩ := Option.bind_eq_some_iff.mp hq
      obtain ⟨s, hs, hq⟩ := Option.bind_eq_some_iff.mp hq
      have e2' : o.transcribe (sys.real env prm fuel') { xc with t0 := t } { uc with t0 := t } t x = some o2 := e2
      rw [e2', Option.bind_some]
      have hs' : (sys.real env prm fuel').solver.solve o2.qp o2.warm o2.solver = some s := qpObject_fuel hle hs
      rw [hs', Option.bind_some]
      exact hq
    rw [this]
    rfl
  | _ => exact h

theorem wInv_fuel {sys : Sys T ℝ σ X U nx nu} {w : World T ℝ (QState ℝ) X U nx nu ncr} (h : WInv prm (sys.real env prm fuel) w) : WInv prm (sys.real env prm fuel') w :=
  ⟨fun i o hi => ⟨⟨(h.ok i o hi).1.kmesh, (h.ok i o hi).1.mesh, (h.ok i o hi).1.inv, (h.ok i o hi).1.P, (h.ok i o hi).1.q, (h.ok i o hi).1.cr⟩, (h.ok i o hi).2⟩,
    fun i o hi => ⟨⟨(h.sat i o hi).1.order, (h.sat i o hi).1.dyn, (h.sat i o hi).1.cr, (h.sat i o hi).1.ce⟩, (h.sat i o hi).2⟩⟩

end Verif.MPC
