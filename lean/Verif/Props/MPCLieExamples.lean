import Verif.Props.MPCExamples

/-! # A controller on a group that is not commutative (C39, C42, C44, C84) -/

set_option linter.unusedSectionVars false

namespace Verif.MPC

open Verif.Mesh Verif.Sparse Verif.MeshFn Verif.NLP Verif.OQP Verif.QPSpec Verif.Lie
open Verif.QP (Ext Status)
open scoped Matrix

attribute [local instance] Matrix.linftyOpNormedRing Matrix.linftyOpNormedAlgebra Matrix.linftyOpNormedSpace Matrix.linftyOpNormedAddCommGroup

/-- States on the Heisenberg group, one input. -/
noncomputable def heisSys : Sys ℝ ℝ Unit (Fin 3 → ℝ) (Fin 1 → ℝ) 3 1 where
  env := lowEnv ℝ
  plus t s := t + s
  t00 := 0
  solver := bestSolver
  LX := heis
  LU := vec ℝ 1
  rminus x y := ![x 0 - y 0, x 1 - y 1, x 2 - y 2 - (x 0 - y 0) * (x 1 - y 1) / 2 - y 0 * (x 1 - y 1)]
  pat k l := k = l ∨ k = 2
  comm := false
  dfltX := 0
  dfltU := 0

theorem heisSys_isLie : heisSys.IsLie heisMat heisHat (vecMat 1) (vecHat 1) where
  x := heis_isLie
  u := vec_isLie 1
  comm h := by cases h
  pat a k l h := by
    simp only [heisSys, decide_eq_false_iff_not, not_or] at h
    fin_cases k <;> fin_cases l <;> simp [heisSys, heis] at h ⊢
  rminus x y := by
    refine ⟨?_, ?_⟩
    · funext i
      fin_cases i <;> simp [heisSys, heis]
      ring
    · have : ((heis (F := ℝ)).drExp (heisSys.rminus x y)).det = 1 := by simp [heis, Matrix.det_fin_three]
      change IsUnit ((heis (F := ℝ)).drExp (heisSys.rminus x y)).det
      rw [this]
      exact isUnit_one

/-- The velocity `(1, u, 0)` in the body frame, `-1 ≤ u ≤ 1`, over one time unit. -/
noncomputable def heisArgs : Args ℝ ℝ (Fin 3 → ℝ) (Fin 1 → ℝ) 3 1 1 where
  f := ⟨false, fun _ _ u => ![1, u 0, 0], fun _ _ _ _ _ => 0, fun _ _ _ k _ => if k = 1 then 1 else 0⟩
  cr := ⟨true, fun _ _ u _ => u 0, fun _ _ _ _ _ => 0, fun _ _ _ _ _ => 1⟩
  crl _ := .fin (-1)
  cru _ := .fin 1
  K := 1
  tf := 1
  warmstart := true
  Kmesh := 1

theorem heisF_ufn : IsUFn heisSys heisArgs.f := by
  intro t x u k
  fin_cases k
  · refine (Flatten.hasPd_const 1 (0 : Arg 3 1 → ℝ)).of_eq fun a => ?_
    cases a <;> simp [heisArgs]
  · refine ((Flatten.hasPd_const (u 0) (0 : Arg 3 1 → ℝ)).add (Flatten.hasPd_coord (Arg.u 0) 0)).of_eq fun a => ?_
    cases a with
    | u l =>
      obtain rfl : l = 0 := Subsingleton.elim _ _
      simp [heisArgs]
    | _ => simp [heisArgs]
  · refine (Flatten.hasPd_const 0 (0 : Arg 3 1 → ℝ)).of_eq fun a => ?_
    cases a <;> simp [heisArgs]

theorem heisCr_ufn : IsUFn heisSys heisArgs.cr := by
  intro t x u k
  refine ((Flatten.hasPd_const (u 0) (0 : Arg 3 1 → ℝ)).add (Flatten.hasPd_coord (Arg.u 0) 0)).of_eq fun a => ?_
  cases a with
  | u l =>
    obtain rfl : l = 0 := Subsingleton.elim _ _
    simp [heisArgs]
  | _ => simp [heisArgs]

theorem heisCr_affine : Affine heisSys heisArgs.cr := by
  intro t x u k
  refine ⟨0, 1, fun dx du => ?_⟩
  simp [heisArgs, heisSys, vec]

theorem heisMeshOf : meshOf heisArgs = oneMesh := by
  unfold meshOf uniform
  simp [heisArgs]

/-- The collocation point. -/
abbrev pt0 : Fin (nColloc oneMesh) := ⟨0, by simp [oneN]⟩

/-- The program for the desired trajectory `exp(t (1, 0, 0))`: the third component of the error changes with the second, although the dynamics do not
depend on the state. -/
theorem heis_horizon (x : Fin 3 → ℝ) (z : QVar (nColloc oneMesh) 3 1 → ℝ) :
    Horizon heisSys oneMesh heisArgs (fun t => ![t, 0, 0]) (fun _ => ![1, 0, 0]) (fun _ _ => 0) 0 x z ↔
      (z (.x 1 0) - z (.x 0 0) = 0 ∧ z (.x 1 1) - z (.x 0 1) = z (.u pt0 0) ∧ z (.x 1 2) - z (.x 0 2) = -z (.x 0 1)) ∧
      z (.x 0 0) = x 0 ∧ z (.x 0 1) = x 1 ∧ z (.x 0 2) = x 2 - x 0 * x 1 / 2 := by
  have hs : ∀ k, MeshFn.slope heisSys.env (spans 1 oneMesh) (fun j => if h : j < nColloc oneMesh + 1 then z (.x ⟨j, h⟩ k) else 0) 0 =
      z (.x 1 k) - z (.x 0 k) := by
    intro k
    refine (slope_one _).trans ?_
    simp [oneN]
    rfl
  have ht : ∀ (i : Fin (nColloc oneMesh)) k, taylor1 (fun δ => errVel heisSys heisArgs.f (seen heisArgs.f (nodeTime heisSys oneMesh heisArgs.tf 0 i))
      ![nodeTime heisSys oneMesh heisArgs.tf 0 i, 0, 0] ![1, 0, 0] (fun _ => 0) δ k) 0 (OQP.dev z i) = (![0, z (.u pt0 0), -z (.x 0 1)] : Fin 3 → ℝ) k := by
    intro i k
    obtain rfl : i = pt0 := Subsingleton.elim (α := Fin 1) _ _
    rw [errVel_sum heisSys_isLie heisF_ufn]
    have had : heisSys.LX.ad = (heisAd : (Fin 3 → ℝ) → _) := rfl
    rw [had]
    fin_cases k <;>
      simp [heisArgs, heisAd, Fin.sum_univ_succ, Matrix.mulVec, dotProduct, OQP.dev, Pi.single_apply]
    norm_num
    rfl
  constructor
  · rintro ⟨h1, h2⟩
    have a : ∀ k, z (.x 1 k) - z (.x 0 k) = (![0, z (.u pt0 0), -z (.x 0 1)] : Fin 3 → ℝ) k := by
      intro k
      have := h1 pt0 k
      rw [ht] at this
      refine (hs k).symm.trans (this.trans ?_)
      simp [heisArgs]
    have b := congrFun h2
    refine ⟨⟨a 0, a 1, a 2⟩, ?_, ?_, ?_⟩
    · have := b 0; simp [heisSys] at this; linarith
    · have := b 1; simp [heisSys] at this; linarith
    · have := b 2; simp [heisSys] at this; linarith
  · rintro ⟨⟨h1, h2, h3⟩, h4, h5, h6⟩
    refine ⟨fun i k => ?_, funext fun k => ?_⟩
    · rw [ht]
      obtain rfl : i = pt0 := Subsingleton.elim (α := Fin 1) _ _
      refine (hs k).trans ?_
      fin_cases k
      · exact h1.trans (by simp [heisArgs])
      · exact h2.trans (by simp [heisArgs])
      · exact h3.trans (by simp [heisArgs])
    · fin_cases k
      · simp [heisSys]; linarith
      · simp [heisSys]; linarith
      · simp [heisSys]; linarith

/-- What `bestSolver` calls optimal is a minimiser. -/
theorem bestSolver_min (qp : QPD ℝ) (warm st r) (h : bestSolver.solve qp warm st = some r) (hc : r.1.code = .optimal)
    (v' : Fin qp.q.size → ℝ) (hv : QPSpec.Feasible (toPbm qp qp.q.size qp.l.size) v') :
    cost (toPbm qp qp.q.size qp.l.size) (fun i => r.1.primal.val i) ≤ cost (toPbm qp qp.q.size qp.l.size) v' := by
  unfold bestSolver at h
  simp only at h
  split_ifs at h with hm
  · obtain rfl := Option.some.inj h
    simp only [Fin.is_lt, dif_pos]
    exact hm.choose_spec.2 v' hv
  · obtain rfl := Option.some.inj h
    cases hc

/-- The deviation with this first state and no input. -/
noncomputable def rest (e : Fin 3 → ℝ) : QVar (nColloc oneMesh) 3 1 → ℝ
  | .x i k => if (i : ℕ) = 0 then e k else (![e 0, e 1, e 2 - e 1] : Fin 3 → ℝ) k
  | .u _ _ => 0

theorem heis_unit (z : QVar (nColloc oneMesh) 3 1 → ℝ) : unitCost (lowEnv ℝ) oneMesh 1 z =
    3 / 4 * (z (.x 0 0) ^ 2 + z (.x 0 1) ^ 2 + z (.x 0 2) ^ 2) + z (.u pt0 0) ^ 2 / 2 := by
  unfold unitCost
  have : ∑ i : Fin (nColloc oneMesh), wAt (lowEnv ℝ) oneMesh i * (∑ k, dxAt z i k ^ 2 + ∑ k, duAt z i k ^ 2) =
      z (.x 0 0) ^ 2 + z (.x 0 1) ^ 2 + z (.x 0 2) ^ 2 + z (.u pt0 0) ^ 2 := by
    refine (Fin.sum_univ_one (M := ℝ) _).trans ?_
    refine (congrArg (· * _) one_w).trans ?_
    simp [dxAt, duAt, Fin.sum_univ_succ, add_assoc]
    rfl
  rw [this]
  simp only [Fin.sum_univ_succ, Fin.sum_univ_zero]
  simp
  ring

/-- From `(0, 1, 0)`, with the desired trajectory `(t, 0, 0)` of velocity `(1, 0, 0)`: the controller reports Optimal, returns the input 0 and the states
`(0, 1, 0)`, `(1, 1, 0)`, which lie on the trajectory with velocity `(1, 0, 0)` from the current state. -/
theorem heis_run : ∃ (w w' : World ℝ ℝ Unit (Fin 3 → ℝ) (Fin 1 → ℝ) 3 1 1) (r : Out (Fin 3 → ℝ) (Fin 1 → ℝ)),
    World.run heisSys [.new heisArgs, .setX 0 (fun t => ![t, 0, 0]) (fun _ => ![1, 0, 0])] World.empty = some w ∧
    w.step heisSys (.call 0 0 ![0, 1, 0]) = some (w', some r) ∧ r.code = .optimal ∧ r.u = ![0] ∧ r.xTraj = [![0, 1, 0], ![1, 1, 0]] := by
  obtain ⟨o, ho⟩ := new_def heisSys heisArgs le_rfl (by norm_num) (fun qp s => by simp [heisSys, bestSolver]) 0 0
  obtain ⟨-, o2, o3, o4, -⟩ := new_ok heisSys _ _ _ o ho
  set w : World ℝ ℝ Unit (Fin 3 → ℝ) (Fin 1 → ℝ) 3 1 1 :=
    ⟨[{ (newX heisSys : XCell ℝ ℝ (Fin 3 → ℝ) 3) with xdes := fun t => ![t, 0, 0], dxdes := fun _ => ![1, 0, 0] }], [newU heisSys], [o]⟩ with hwd
  have hw : World.run heisSys [.new heisArgs, .setX 0 (fun t => ![t, 0, 0]) (fun _ => ![1, 0, 0])] World.empty = some w := by
    have e0 : World.empty.step heisSys (.new heisArgs) = some (⟨[newX heisSys], [newU heisSys], [o]⟩, none) := by
      unfold World.step World.empty
      simp [ho]
    rw [World.run, e0, Option.bind_some, World.run, World.step]
    simp [o3, World.run, hwd]
  have hF : w.Follows 0 heisArgs (fun t => ![t, 0, 0]) (fun _ => ![1, 0, 0]) (fun _ _ => 0) :=
    ⟨o, _, newU heisSys, rfl, o2, by rw [o3]; rfl, by rw [o4]; rfl, rfl, rfl, rfl⟩
  obtain ⟨w', out, hstep⟩ := mpc_call_defined heisSys _ w hw 0 (by simp [hwd]) 0 ![0, 1, 0] (fun qp warm st => bestSolver_total qp warm st)
  have hL : ∀ K, heisArgs.Kmesh ≤ K → K ≤ heisArgs.Kmesh + 1 → IsLGR heisSys.env K := fun K a b => lowEnv_lgr K a b
  obtain ⟨s, r, g1, g2, g3, g4, -, g5, -, -, -, -, g6, -⟩ := mpc_output heisSys _ w hw 0 _ hL _ _ _ hF 0 ![0, 1, 0] w' _ hstep
  obtain rfl := Option.some.inj g2
  obtain ⟨qp, h1, h2, h3⟩ := mpc_program heisSys _ w hw 0 _ heisSys_isLie heisF_ufn heisCr_ufn _ _ _ hF 0 ![0, 1, 0]
  rw [heisMeshOf] at h2 h3 g5 g6 g4
  have ga := g1
  unfold World.answer at ga
  obtain ⟨o', ho', ga⟩ := Option.bind_eq_some_iff.mp ga
  rw [h1, Option.bind_some] at ga
  obtain ⟨p, hp, rfl⟩ := Option.map_eq_some_iff.mp ga
  -- the point without input is feasible
  obtain ⟨v, hv⟩ := ((qp_layout (nColloc oneMesh) 3 1 1 3).1 (rest ![0, 1, 0])).exists
  obtain ⟨e1, e2⟩ := h3 _ v hv
  have hrun : ∀ z : QVar (nColloc oneMesh) 3 1 → ℝ, z (.u pt0 0) = 0 → RunningAround heisSys oneMesh heisArgs (fun t => ![t, 0, 0]) (fun _ _ => 0) 0 z := by
    intro z hz i k
    obtain rfl : i = pt0 := Subsingleton.elim (α := Fin 1) _ _
    rw [expand_sum heisSys_isLie heisCr_ufn]
    simp [heisArgs, Within, lower, upper, OQP.dev, hz]
  have hfe := e1.mpr ⟨(heis_horizon _ _).mpr (by simp [rest, oneN]), by
    rw [if_pos (by simp [heisArgs])]
    exact hrun _ rfl⟩
  have hcost := e2.trans (heis_unit (rest ![0, 1, 0]))
  have main : ∀ a b, a = numV (nColloc oneMesh) 3 1 → b = numC (nColloc oneMesh) 3 1 3 →
      ∃ v : Fin a → ℝ, QPSpec.Feasible (toPbm qp a b) v ∧ cost (toPbm qp a b) v = 3 / 4 ∧ ∀ v', QPSpec.Feasible (toPbm qp a b) v' → 3 / 4 ≤ cost (toPbm qp a b) v' := by
    rintro a b rfl rfl
    refine ⟨v, hfe, by rw [hcost]; simp [rest], fun v' hv' => ?_⟩
    obtain ⟨f1, f2⟩ := h3 (fun q => v' ⟨q.pos, q.pos_lt⟩) v' (fun q hq => rfl)
    obtain ⟨-, k1, k2, k3⟩ := (heis_horizon _ _).mp (f1.mp hv').1
    have := f2.trans (heis_unit _)
    rw [this, k1, k2, k3]
    simp only [Matrix.cons_val_zero, Matrix.cons_val_one, Matrix.cons_val]
    nlinarith [sq_nonneg (v' ⟨(QVar.u pt0 0 : QVar (nColloc oneMesh) 3 1).pos, QVar.pos_lt _⟩)]
  obtain ⟨v1, m1, m2, m3⟩ := main _ _ h2.q h2.l
  have hopt : p.1.code = .optimal := bestSolver_optimal qp _ _ v1 m1 (fun v' hv' => m2.le.trans (m3 v' hv')) p hp
  have hmin := (bestSolver_min qp _ _ p hp hopt v1 m1).trans m2.le
  obtain ⟨hH, -⟩ := answer_feasible heisSys bestSolver_exact _ w hw 0 _ heisSys_isLie heisF_ufn heisCr_ufn _ _ _ hF 0 ![0, 1, 0] p.1 g1 hopt
  rw [heisMeshOf] at hH
  obtain ⟨⟨j1, j2, j3⟩, k1, k2, k3⟩ := (heis_horizon _ _).mp hH
  have hcz : cost (toPbm qp qp.q.size qp.l.size) (fun i => p.1.primal.val i) = unitCost heisSys.env oneMesh heisArgs.tf (zOf p.1.primal : QVar (nColloc oneMesh) 3 1 → ℝ) := by
    rw [h2.q, h2.l]
    exact (h3 _ _ (zOf_primal p.1.primal)).2
  have hu0 : (zOf p.1.primal : QVar (nColloc oneMesh) 3 1 → ℝ) (.u pt0 0) = 0 := by
    rw [hcz] at hmin
    have := (heis_unit (zOf p.1.primal)).symm.le.trans hmin
    rw [k1, k2, k3] at this
    simp only [Matrix.cons_val_zero, Matrix.cons_val_one, Matrix.cons_val] at this
    nlinarith [sq_nonneg ((zOf p.1.primal : QVar (nColloc oneMesh) 3 1 → ℝ) (.u pt0 0))]
  have hτ : ∀ j : ℕ, nodeTime heisSys oneMesh heisArgs.tf 0 j = tauAt (lowEnv ℝ) oneMesh j := by
    intro j
    change (0 : ℝ) + 1 * _ = _
    rw [zero_add, one_mul]
    rfl
  have hτ0 : tauAt (lowEnv ℝ) oneMesh 0 = 0 := by
    simp [tauAt, allNodes, intervalNodes, lowEnv, nTake, tauf, nodeExt]
  have hτ1 : tauAt (lowEnv ℝ) oneMesh 1 = 1 := by
    simp [tauAt, allNodes, intervalNodes, lowEnv, nTake, tauf, nodeExt]
    norm_num
  refine ⟨w, w', out, hw, hstep, g3 ▸ hopt, ?_, ?_⟩
  · rw [g4]
    funext k
    obtain rfl : k = 0 := Subsingleton.elim _ _
    have : (zOf p.1.primal : QVar (nColloc oneMesh) 3 1 → ℝ) (.u pt0 0) = p.1.primal.val (3 * (nColloc oneMesh + 1) + 0) := by
      simp [zOf, QVar.pos]
    change (0 : ℝ) + _ = 0
    rw [zero_add]
    exact this.symm.trans hu0
  · have l2 : out.xTraj.length = 2 := g5
    have y0 := g6 0
    have y1 := g6 1
    rw [hτ] at y0 y1
    have t0 : ((0 : Fin (nColloc oneMesh + 1)) : ℕ) = 0 := rfl
    have t1 : ((1 : Fin (nColloc oneMesh + 1)) : ℕ) = 1 := rfl
    rw [t0, hτ0] at y0
    rw [t1, hτ1] at y1
    match hx : out.xTraj, l2 with
    | [a, b], _ =>
      rw [hx] at y0 y1
      simp only [List.getElem?_cons_zero, List.getElem?_cons_succ, Option.some.injEq] at y0 y1
      rw [y0, y1]
      congr 1
      · funext k
        fin_cases k <;> simp [heisSys, heis, k1, k2, k3]
      · congr 1
        funext k
        simp only [Matrix.cons_val_zero, Matrix.cons_val_one, Matrix.cons_val] at k1 k2 k3
        have z0 : (zOf p.1.primal : QVar (nColloc oneMesh) 3 1 → ℝ) (.x 1 0) = 0 := by linarith
        have z1 : (zOf p.1.primal : QVar (nColloc oneMesh) 3 1 → ℝ) (.x 1 1) = 1 := by linarith
        have z2 : (zOf p.1.primal : QVar (nColloc oneMesh) 3 1 → ℝ) (.x 1 2) = -1 := by linarith
        fin_cases k <;> simp [heisSys, heis, z0, z1, z2]

end Verif.MPC
