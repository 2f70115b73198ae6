import Verif.Props.DoubleNLP
import Verif.Props.SE2NLPExamples

/-! # Examples for the program ocp_doubleintegrator_nlp.cpp: the rules of `realEnv`, and versions of Ipopt that solve their programs (C130) -/

namespace Verif.DI

open Verif.Mesh Verif.Sparse Verif.MeshFn Verif.NLP Verif.QP Verif.QPSpec Verif.Ipopt Verif.Flatten

open scoped Classical in
/-- The solution on a mesh. -/
noncomputable def bestOn (m : Mesh ℝ) : NVar (nColloc m) 2 1 1 → ℝ := if h : ∃ z, Best realEnv m z then h.choose else fun _ => 0

/-- An Ipopt that returns at once, with the solution and the multipliers `c`. -/
noncomputable def bestIpopt (c : ℝ) (m : Mesh ℝ) (_ : Option (NLPSol ℝ)) : List (CB ℝ) :=
  [.finalize .SUCCESS ⟨nVars (nColloc m) 2 1 1, fun j => bestOn m (varAt (nColloc m) 2 1 1 j)⟩ (zeros 0) (zeros 0)
    ⟨nCons (nColloc m) 2 1 2 5, fun _ => c⟩ 0 0]

theorem bestIpopt_returns (c : ℝ) (jl ju : ℕ → Ext ℝ) (junk : NLPStatus) (m : Mesh ℝ) (start : Option (NLPSol ℝ)) (hm : Valid 5 10 m)
    (_ : ∀ s, start = some s → SizedFor 2 1 1 2 5 m s) : ∃ s, nlpSolve realEnv jl ju junk (bestIpopt c) m start = some s ∧
      SizedFor 2 1 1 2 5 m s ∧ Best realEnv m (held (nColloc m) 2 1 1 s.x) := by
  refine ⟨⟨.optimal, 0, ⟨nVars (nColloc m) 2 1 1, fun j => bestOn m (varAt (nColloc m) 2 1 1 j)⟩, zeros 0, zeros 0,
    ⟨nCons (nColloc m) 2 1 2 5, fun _ => c⟩, 0⟩, rfl, ⟨rfl, rfl⟩, ?_⟩
  have hh : held (nColloc m) 2 1 1 ⟨nVars (nColloc m) 2 1 1, fun j => bestOn m (varAt (nColloc m) 2 1 1 j)⟩ = bestOn m := by
    funext v
    exact congrArg (bestOn m) (varAt_pos v)
  change Best realEnv m (held (nColloc m) 2 1 1 ⟨nVars (nColloc m) 2 1 1, fun j => bestOn m (varAt (nColloc m) 2 1 1 j)⟩)
  rw [hh]
  have he := (di_nlp_best realEnv_lagrange (le_refl 5) hm (fun K hK _ => realEnv_lgr K (by omega))).exists
  unfold bestOn
  rw [dif_pos he]
  exact he.choose_spec

/-- The whole program runs. -/
example (jl ju : ℕ → Ext ℝ) (junk : NLPStatus) (jx jlam : ℕ → ℝ) : ∃ out, nlpMain realEnv jl ju junk (bestIpopt 0) jx jlam = some out ∧ out.passes ≠ [] ∧
    ∀ p ∈ out.passes, p.sol.tf = 5 := by
  obtain ⟨out, h1, h2, -, h4, -⟩ := di_nlp_run realEnv realEnv_lagrange realEnv_search realEnv_growth (fun K hK _ => realEnv_lgr K (by omega)) jl ju junk
    (bestIpopt 0) jx jlam (bestIpopt_returns 0 jl ju junk)
  exact ⟨out, h1, h2, fun p hp => (h4 p hp).2.2.1⟩

/-- With other multipliers the same trajectories. -/
example (jl ju : ℕ → Ext ℝ) (junk : NLPStatus) (jx jlam : ℕ → ℝ) := di_nlp_same realEnv realEnv_lagrange realEnv_search realEnv_growth
  (fun K hK _ => realEnv_lgr K (by omega)) jl ju jl ju junk junk (bestIpopt 0) (bestIpopt 1) jx jlam jx jlam (bestIpopt_returns 0 jl ju junk)
  (bestIpopt_returns 1 jl ju junk)

/-- The first mesh of the example, one interval, has a solution. -/
example : ∃! z, Best realEnv [⟨5, 0⟩] z :=
  di_nlp_best (Kmax := 10) realEnv_lagrange (le_refl 5) (valid_single 5 10 (by norm_num)) (fun K hK _ => realEnv_lgr K (by omega))

/-- Hessians on it. -/
example := di_nlp_hessian realEnv (Kmin := 5) (Kmax := 10) (by norm_num) (valid_single 5 10 (by norm_num)) (fun _ => .neg) (fun _ => .pos)

end Verif.DI
