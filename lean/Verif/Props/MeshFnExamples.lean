import Verif.Props.MeshDyn
import Verif.Proofs.MeshEnv

/-! # Concrete functions over a mesh: the assumption on derivatives can be met for every smooth function -/

set_option linter.unusedSectionVars false

namespace Verif.MeshFn

open Verif.Mesh Verif.Sparse

variable {nx nu nf : ℕ}

/-- The argument at a position. -/
def Arg.at (nx nu : ℕ) (c : ℕ) : Arg nx nu :=
  if h : 1 ≤ c ∧ c - 1 < nx then .x ⟨c - 1, h.2⟩ else if h : 1 + nx ≤ c ∧ c - (1 + nx) < nu then .u ⟨c - (1 + nx), h.2⟩ else .t

theorem Arg.at_pos (a : Arg nx nu) : Arg.at nx nu a.pos = a := by
  cases a with
  | t => simp [Arg.at, Arg.pos]
  | x k =>
    have := k.2
    have h : (Arg.x k : Arg nx nu).pos = 1 + k := rfl
    rw [Arg.at, dif_pos ⟨by omega, by omega⟩]
    congr 1
    ext; simp [h]
  | u k =>
    have := k.2
    have h : (Arg.u k : Arg nx nu).pos = 1 + nx + k := rfl
    rw [Arg.at, dif_neg (by omega), dif_pos ⟨by omega, by omega⟩]
    congr 1
    ext; simp [h]

theorem Arg.pos_lt (a : Arg nx nu) : a.pos < 1 + nx + nu := by
  cases a with
  | t => simp [Arg.pos]
  | x k => have := k.2; simp only [Arg.pos]; omega
  | u k => have := k.2; simp only [Arg.pos]; omega

/-- Exact derivatives of a function, as dense matrices. -/
noncomputable def drOf (f : (Arg nx nu → ℝ) → Fin nf → ℝ) : Fn ℝ nx nu nf where
  val := f
  jac p := dense nf (1 + nx + nu) fun i c => if h : i < nf then pd (fun p => f p ⟨i, h⟩) (Arg.at nx nu c) p else 0
  hess p := dense (1 + nx + nu) (nf * (1 + nx + nu)) fun r c => if h : c / (1 + nx + nu) < nf then
    pd (pd (fun p => f p ⟨c / (1 + nx + nu), h⟩) (Arg.at nx nu r)) (Arg.at nx nu (c % (1 + nx + nu))) p else 0

theorem drOf_isDr {f : (Arg nx nu → ℝ) → Fin nf → ℝ} (hf : ∀ j, ContDiff ℝ 2 fun p => f p j) : IsDr (drOf f) where
  smooth := hf
  jac_rows _ := rfl
  jac_cols _ := rfl
  hess_rows _ := rfl
  hess_cols _ := rfl
  jac_val p j a := by
    have := a.pos_lt
    simp [drOf, Sp.val, dense, this, Arg.at_pos]
  hess_val p j a b := by
    have ha := a.pos_lt
    have hb := b.pos_lt
    have hlt : (1 + nx + nu) * j + b.pos < nf * (1 + nx + nu) := by
      calc (1 + nx + nu) * j + b.pos < (1 + nx + nu) * j + (1 + nx + nu) := by omega
        _ = (j + 1) * (1 + nx + nu) := by ring
        _ ≤ nf * (1 + nx + nu) := Nat.mul_le_mul_right _ j.2
    have hdiv : ((1 + nx + nu) * j + b.pos) / (1 + nx + nu) = j := by
      rw [Nat.mul_add_div (by omega), Nat.div_eq_of_lt hb, Nat.add_zero]
    have hmod : ((1 + nx + nu) * j + b.pos) % (1 + nx + nu) = b.pos := by
      rw [Nat.mul_add_mod, Nat.mod_eq_of_lt hb]
    simp only [drOf, Sp.val, dense]
    rw [if_pos ⟨ha, hlt⟩, Option.getD_some, dif_pos (by rw [hdiv]; exact j.2)]
    simp only [hdiv, hmod, Arg.at_pos, Fin.eta]

/-- `f(t, x, u) = x u + t`. -/
def exF (p : Arg 1 1 → ℝ) (_ : Fin 1) : ℝ := p (.x 0) * p (.u 0) + p .t

theorem exF_dr : IsDr (drOf exF) := drOf_isDr fun _ => by unfold exF; fun_prop

/-- Two intervals, with two points and one point. -/
noncomputable def exMesh : Mesh ℝ := [⟨2, 0⟩, ⟨1, 1 / 2⟩]

theorem exMesh_ne : exMesh ≠ [] := by simp [exMesh]
theorem exMesh_K : ∀ v ∈ exMesh, 1 ≤ v.K := by simp [exMesh]
theorem exMesh_N : nColloc exMesh = 3 := by simp [exMesh, nColloc]

/-- A fresh buffer with multipliers. -/
def exBuf (n : ℕ) : MV ℝ := ⟨⟨0, fun _ => 7⟩, Sp.empty 0 0, Sp.empty 0 0, ⟨n, fun _ => 1⟩, false⟩

theorem exBuf_usable (d M V : ℕ) : Usable d M V (exBuf M) := by
  refine ⟨fun h => ?_, fun h => ?_, fun h => ?_, fun _ => rfl⟩ <;> simp [exBuf] at h

/-- All states 2, all inputs 3, from time 1 to time 5. -/
def exZ {N : ℕ} : Var N 1 1 → ℝ
  | .t0 => 1
  | .tf => 5
  | .x _ _ => 2
  | .u _ _ => 3

/-- With as many points as the mesh has. -/
noncomputable abbrev exZ3 : Var (nColloc exMesh) 1 1 → ℝ := exZ

theorem exNodes : allNodes (lowEnv ℝ) exMesh = [0, 1 / 3, 1 / 2, 1] := by
  rw [allNodes_eq _ _ exMesh_ne]
  simp [exMesh, spans, localNodes, lowEnv, List.range_succ]
  norm_num

theorem exWeights : allWeights (lowEnv ℝ) exMesh = [1 / 8, 3 / 8, 1 / 2, 0] := by
  rw [allWeights_eq _ _ exMesh_ne]
  simp [exMesh, spans, localWeights, lowEnv, List.range_succ]
  norm_num

theorem exTau0 : tauAt (lowEnv ℝ) exMesh 0 = 0 := by rw [tauAt, exNodes]; rfl

theorem exMesh_valid : Valid 1 1 exMesh := by
  refine ⟨by simp [exMesh], by simp [exMesh], ?_, ?_⟩ <;> simp [exMesh]
  norm_num

/-- `mesh_eval` of `x u + t` on two intervals: the value and a derivative at the first point. -/
example : ∃ o, meshEval 2 (lowEnv ℝ) exMesh (drOf exF) 1 5 (states exZ3) (inputs exZ3) false (exBuf (1 * nColloc exMesh)) = some o ∧
    o.F.val 0 = 7 ∧ o.dF.val 0 2 = 3 := by
  obtain ⟨o, e, h⟩ := mesh_eval_exact 2 (lowEnv ℝ) exMesh (drOf exF) (fun _ => exF_dr) false exZ3 (exBuf (1 * nColloc exMesh)) (exBuf_usable _ _ _)
  have hN : 0 < nColloc exMesh := by rw [exMesh_N]; norm_num
  have h0 := exTau0
  refine ⟨o, e, ?_, ?_⟩
  · have := h.value (⟨0, hN⟩, 0)
    simp only [rowOf, Fin.val_zero, Nat.mul_zero, Nat.add_zero] at this
    rw [this, evalSpec, h0]
    simp [drOf, exF, nodePt, exZ]
    norm_num
  · have := h.jac (by norm_num) (⟨0, hN⟩, 0) (.x 0 0)
    simp only [rowOf, Fin.val_zero, Nat.mul_zero, Nat.add_zero, Var.pos] at this
    rw [this]
    change pd (fun z : Var (nColloc exMesh) 1 1 → ℝ => 1 * (z (.x 0 0) * z (.u ⟨0, hN⟩ 0) +
      (z .t0 + (z .tf - z .t0) * tauAt (lowEnv ℝ) exMesh 0))) (.x 0 0) exZ = 3
    rw [h0]
    simp only [mul_zero, add_zero, one_mul]
    rw [pd_add (f := fun z : Var (nColloc exMesh) 1 1 → ℝ => z (.x 0 0) * z (.u ⟨0, hN⟩ 0)) (g := fun z => z .t0)
      (by fun_prop) (by fun_prop), pd_mul (f := fun z : Var (nColloc exMesh) 1 1 → ℝ => z (.x 0 0))
      (g := fun z => z (.u ⟨0, hN⟩ 0)) (by fun_prop) (by fun_prop), pd_coord, pd_coord, pd_coord]
    simp [exZ]

/-- `mesh_integrate` of `x u + t`: the quadrature of `6 + t` from 1 to 5. -/
example : ∃ o, meshIntegrate 2 (lowEnv ℝ) exMesh (drOf exF) 1 5 (states exZ3) (inputs exZ3) (exBuf 1) = some o ∧
    o.F.val 0 = 4 * ((6 + 1) * (1 / 8) + (6 + (1 + 4 * (1 / 3))) * (3 / 8) + (6 + 3) * (1 / 2)) := by
  obtain ⟨o, e, h⟩ := mesh_integrate_exact 2 (lowEnv ℝ) exMesh (drOf exF) (fun _ => exF_dr) (by simp) exZ3 (exBuf 1) (exBuf_usable _ _ _)
  refine ⟨o, e, ?_⟩
  refine (h.value 0).trans ?_
  have hsum : ∀ g : ℕ → ℝ, ∑ i : Fin (nColloc exMesh), g i = g 0 + g 1 + g 2 := by
    intro g
    rw [Fin.sum_univ_eq_sum_range, exMesh_N, Finset.sum_range_succ, Finset.sum_range_succ, Finset.sum_range_one]
  have := hsum fun i => wAt (lowEnv ℝ) exMesh i * (2 * 3 + (1 + (5 - 1) * tauAt (lowEnv ℝ) exMesh i))
  refine (congrArg ((5 - 1 : ℝ) * ·) this).trans ?_
  simp only [wAt, tauAt, exNodes, exWeights]
  norm_num

/-- `mesh_dyn` of `x' = x u + t`: states constantly 2 leave the defect `w_0 (4 · 7)` at the first point. -/
example : ∃ o, meshDyn 2 (lowEnv ℝ) exMesh (drOf exF) 1 5 (states exZ3) (inputs exZ3) (exBuf (1 * nColloc exMesh)) = some o ∧
    o.F.val 0 = 1 / 8 * (4 * 7) := by
  obtain ⟨o, e, h⟩ := mesh_dyn_exact 2 (lowEnv ℝ) exMesh exMesh_ne exMesh_K (drOf exF) (fun _ => exF_dr) exZ3 (exBuf (1 * nColloc exMesh))
    (exBuf_usable _ _ _)
  have hN : 0 < nColloc exMesh := by rw [exMesh_N]; norm_num
  refine ⟨o, e, ?_⟩
  have := h.value (⟨0, hN⟩, 0)
  simp only [rowOf, Fin.val_zero, Nat.mul_zero, Nat.add_zero] at this
  rw [this]
  obtain ⟨p, _, _, _, h⟩ := mesh_dyn_defect (lowEnv ℝ) lowEnv_lagrange le_rfl exMesh exMesh_valid (fun K h1 h2 => lowEnv_lgr K h1 h2)
    exF exZ3 0 (fun _ => 2) (fun _ => Polynomial.C 2) (by simp) (by simp) (fun _ => rfl) ⟨0, hN⟩
  refine Eq.trans h ?_
  simp only [wAt, tauAt, exNodes, exWeights, exF, nodePt, exZ]
  norm_num

/-- A buffer that has been used for `mesh_eval` and `mesh_dyn` before. -/
example (l : Vec ℝ) (hl : l.size = 1 * nColloc exMesh) : ∃ used r r',
    runAll 2 (lowEnv ℝ) [Call.eval (m := exMesh) (drOf exF) true exZ l, Call.dyn (drOf exF) exZ l] (exBuf 0) = some used ∧
      (Call.dyn (m := exMesh) (drOf exF) exZ l).run 2 (lowEnv ℝ) used = some r ∧
      (Call.dyn (m := exMesh) (drOf exF) exZ l).run 2 (lowEnv ℝ) (exBuf 0) = some r' ∧ Same 2 r r' :=
  buffers_reusable 2 (lowEnv ℝ) exMesh exMesh_ne exMesh_K
    [Call.eval (m := exMesh) (drOf exF) true exZ l, Call.dyn (drOf exF) exZ l] (by
      intro c hc
      rcases List.mem_cons.1 hc with rfl | hc
      · exact ⟨fun _ => exF_dr, fun _ => hl⟩
      · rw [List.mem_singleton.1 hc]
        exact ⟨fun _ => exF_dr, fun _ => hl⟩) (Call.dyn (drOf exF) exZ l) ⟨fun _ => exF_dr, fun _ => hl⟩ (exBuf 0) (exBuf 0) rfl rfl

end Verif.MeshFn
