import Verif.Props.MPCVec
import Verif.Proofs.MeshEnv

/-! # Concrete controllers (C39, C40, C42, C43, C44) -/

set_option linter.unusedSectionVars false

namespace Verif.MPC

open Verif.Mesh Verif.Sparse Verif.MeshFn Verif.NLP Verif.OQP Verif.QPSpec Verif.Lie
open Verif.QP (Ext Status)

/-- A solver that returns a minimiser if there is one, and reports infeasibility otherwise. -/
noncomputable def bestSolver : Solver ℝ Unit where
  init := ()
  copy _ := ()
  analyze _ _ := some ()
  solve qp _ _ :=
    open Classical in
    if h : ∃ v : Fin qp.q.size → ℝ, Feasible (toPbm qp qp.q.size qp.l.size) v ∧
        ∀ v', Feasible (toPbm qp qp.q.size qp.l.size) v' → cost (toPbm qp qp.q.size qp.l.size) v ≤ cost (toPbm qp qp.q.size qp.l.size) v' then
      some (⟨.optimal, ⟨qp.q.size, fun i => if hi : i < qp.q.size then h.choose ⟨i, hi⟩ else 0⟩, ⟨qp.l.size, fun _ => 0⟩⟩, ())
    else some (⟨.primalInfeasible, ⟨qp.q.size, fun _ => 0⟩, ⟨qp.l.size, fun _ => 0⟩⟩, ())

theorem bestSolver_total (qp : QPD ℝ) (warm st) : ∃ r, bestSolver.solve qp warm st = some r ∧ r.1.primal.size = qp.q.size := by
  unfold bestSolver
  simp only
  split_ifs
  · exact ⟨_, rfl, rfl⟩
  · exact ⟨_, rfl, rfl⟩

theorem bestSolver_exact : Exact bestSolver := by
  intro qp warm st r h hc
  unfold bestSolver at h
  simp only at h
  split_ifs at h with hv
  · obtain rfl := Option.some.inj h
    refine ⟨rfl, ?_⟩
    simp only [Fin.is_lt, dif_pos]
    exact hv.choose_spec.1
  · obtain rfl := Option.some.inj h
    cases hc

/-- If there is a minimiser, the answer is Optimal. -/
theorem bestSolver_optimal (qp : QPD ℝ) (warm st) (v : Fin qp.q.size → ℝ) (hv : Feasible (toPbm qp qp.q.size qp.l.size) v)
    (hm : ∀ v', Feasible (toPbm qp qp.q.size qp.l.size) v' → cost (toPbm qp qp.q.size qp.l.size) v ≤ cost (toPbm qp qp.q.size qp.l.size) v')
    (r) (h : bestSolver.solve qp warm st = some r) : r.1.code = .optimal := by
  unfold bestSolver at h
  simp only at h
  rw [dif_pos ⟨v, hv, hm⟩] at h
  rw [← Option.some.inj h]

/-- One interval with one collocation point, time and solver as they come. -/
noncomputable def exSys : Sys ℝ ℝ Unit (Fin 1 → ℝ) (Fin 1 → ℝ) 1 1 := vecSys 1 1 (lowEnv ℝ) (fun t s => t + s) 0 bestSolver

/-- `x' = u` with `-1 ≤ u ≤ 1` over one time unit. -/
noncomputable def exArgs (timed : Bool) : Args ℝ ℝ (Fin 1 → ℝ) (Fin 1 → ℝ) 1 1 1 where
  f := ⟨false, fun _ _ u _ => u 0, fun _ _ _ _ _ => 0, fun _ _ _ _ _ => 1⟩
  cr := ⟨timed, fun _ _ u _ => u 0, fun _ _ _ _ _ => 0, fun _ _ _ _ _ => 1⟩
  crl _ := .fin (-1)
  cru _ := .fin 1
  K := 1
  tf := 1
  warmstart := true
  Kmesh := 1

theorem exSys_isLie : exSys.IsLie (vecMat 1) (vecHat 1) (vecMat 1) (vecHat 1) := vecSys_isLie 1 1 _ _ _ _

theorem input_ufn (b : Bool) : IsUFn exSys (⟨b, fun _ _ u _ => u 0, fun _ _ _ _ _ => 0, fun _ _ _ _ _ => 1⟩ : UFn ℝ ℝ (Fin 1 → ℝ) (Fin 1 → ℝ) 1 1 1) := by
  intro t x u k
  refine ((Flatten.hasPd_const (u 0) (0 : Arg 1 1 → ℝ)).add (Flatten.hasPd_coord (Arg.u 0) 0)).of_eq fun a => ?_
  cases a with
  | t => simp
  | x l => simp
  | u l =>
    obtain rfl : l = 0 := Subsingleton.elim _ _
    simp

theorem exF_ufn (b : Bool) : IsUFn exSys (exArgs b).f := input_ufn false

theorem exCr_ufn (b : Bool) : IsUFn exSys (exArgs b).cr := input_ufn b

theorem exCr_affine (b : Bool) : Affine exSys (exArgs b).cr := by
  intro t x u k
  refine ⟨0, 1, fun dx du => ?_⟩
  simp [exArgs, exSys, vecSys, vec]

theorem exMeshOf (b : Bool) : meshOf (exArgs b) = [⟨1, 0⟩] := by
  unfold meshOf uniform
  simp [exArgs]

theorem slope_one (X : ℕ → ℝ) : MeshFn.slope (lowEnv ℝ) (spans 1 [⟨1, 0⟩]) X 0 = X 1 - X 0 := by
  have h := diffmat_poly (lowEnv_lgr 1 le_rfl (by norm_num)) lowEnv_lagrange (zero_lt_one : (0 : ℝ) < 1)
    (Polynomial.C (X 0) + Polynomial.C (X 1 - X 0) * Polynomial.X) (by
      refine (Polynomial.natDegree_add_le _ _).trans ?_
      rw [Polynomial.natDegree_C]
      exact max_le (by norm_num) ((Polynomial.natDegree_C_mul_le _ _).trans Polynomial.natDegree_X_le)) 0
  simp only [Matrix.vecMul, dotProduct, Fin.sum_univ_two] at h
  simp [toMesh, nodeExt, lowEnv] at h
  simp only [spans, MeshFn.slope]
  rw [dif_pos (by norm_num), Fin.sum_univ_two]
  simp [lowEnv] at h ⊢
  linarith

/-! ## The one-interval problem -/

/-- The mesh. -/
noncomputable abbrev oneMesh : Mesh ℝ := [⟨1, 0⟩]

theorem oneN : nColloc oneMesh = 1 := rfl

/-- The deviation with these values. -/
noncomputable def dev (x0 x1 u0 : ℝ) : QVar (nColloc oneMesh) 1 1 → ℝ
  | .x i _ => if (i : ℕ) = 0 then x0 else x1
  | .u _ _ => u0

theorem expand_input (timed : Bool) (t : Option ℝ) (x u : Fin 1 → ℝ) (d : Arg 1 1 → ℝ) : expand exSys (exArgs timed).cr t x u d 0 = u 0 + d (.u 0) := by
  rw [expand_sum exSys_isLie (exCr_ufn timed)]
  simp [exArgs]

theorem one_w : wAt (lowEnv ℝ) oneMesh 0 = 1 := by
  unfold wAt
  simp [allWeights, lowEnv, intervalWeights, nTake, tauf, weightExt]

theorem one_horizon (timed : Bool) (c t : ℝ) (x : Fin 1 → ℝ) (x0 x1 u0 : ℝ) :
    Horizon exSys oneMesh (exArgs timed) (fun _ _ => 0) (fun _ _ => 0) (fun _ _ => c) t x (dev x0 x1 u0) ↔ x1 - x0 = c + u0 ∧ x0 = x 0 := by
  have hs : MeshFn.slope exSys.env (spans 1 oneMesh) (fun j => if h : j < nColloc oneMesh + 1 then dev x0 x1 u0 (.x ⟨j, h⟩ 0) else 0) 0 = x1 - x0 := by
    refine (slope_one _).trans ?_
    simp [dev, oneN]
  have e := vec_horizon 1 1 (lowEnv ℝ) (fun t s : ℝ => t + s) 0 bestSolver oneMesh (exArgs timed) (exF_ufn timed) (fun _ _ => 0) (fun _ _ => 0) (fun _ _ => c) t x
    (dev x0 x1 u0)
  refine e.trans ?_
  constructor
  · rintro ⟨h1, h2⟩
    have a1 := h1 ⟨0, by simp [oneN]⟩ 0
    have a2 := h2 0
    refine ⟨?_, ?_⟩
    · refine hs.symm.trans (a1.trans ?_)
      simp [exArgs, duAt, dev]
    · simpa [dev] using a2
  · rintro ⟨h1, h2⟩
    refine ⟨fun i k => ?_, fun k => ?_⟩
    · obtain rfl : k = 0 := Subsingleton.elim _ _
      obtain rfl : i = ⟨0, by simp [oneN]⟩ := Subsingleton.elim (α := Fin 1) _ _
      refine hs.trans (h1.trans ?_)
      simp [exArgs, duAt, dev]
    · obtain rfl : k = 0 := Subsingleton.elim _ _
      simpa [dev] using h2

theorem one_running (m : Mesh ℝ) (z : QVar (nColloc m) 1 1 → ℝ) : RunningAtDefault exSys m (exArgs false) z ↔ ∀ i, -1 ≤ z (.u i 0) ∧ z (.u i 0) ≤ 1 := by
  unfold RunningAtDefault
  constructor
  · intro h i
    have := h i 0
    rw [expand_input false] at this
    simpa [Within, lower, upper, exArgs, OQP.dev, exSys, vecSys] using this
  · intro h i k
    obtain rfl : k = 0 := Subsingleton.elim _ _
    rw [expand_input false]
    simpa [Within, lower, upper, exArgs, OQP.dev, exSys, vecSys] using h i

theorem one_unit (x0 x1 u0 : ℝ) : unitCost (lowEnv ℝ) oneMesh 1 (dev x0 x1 u0) = (x0 ^ 2 + u0 ^ 2) / 2 + x0 ^ 2 / 4 := by
  unfold unitCost
  have : ∑ i : Fin (nColloc oneMesh), wAt (lowEnv ℝ) oneMesh i * (∑ k, dxAt (dev x0 x1 u0) i k ^ 2 + ∑ k, duAt (dev x0 x1 u0) i k ^ 2) = x0 ^ 2 + u0 ^ 2 := by
    refine (Fin.sum_univ_one (M := ℝ) _).trans ?_
    refine (congrArg (· * _) one_w).trans ?_
    simp [dxAt, duAt, dev]
  rw [this]
  simp [dev]
  ring

theorem one_doc (q qtf r x0 x1 u0 : ℝ) : docCost (lowEnv ℝ) oneMesh 1 (fun _ _ => q) (fun _ _ => qtf) (fun _ _ => r) (dev x0 x1 u0) =
    (q * x0 ^ 2 + r * u0 ^ 2 + qtf * x1 ^ 2) / 2 := by
  unfold docCost
  have : ∑ i : Fin (nColloc oneMesh), wAt (lowEnv ℝ) oneMesh i *
      (∑ k, ∑ l, q * dxAt (dev x0 x1 u0) i k * dxAt (dev x0 x1 u0) i l + ∑ k, ∑ l, r * duAt (dev x0 x1 u0) i k * duAt (dev x0 x1 u0) i l) =
      q * x0 ^ 2 + r * u0 ^ 2 := by
    refine (Fin.sum_univ_one (M := ℝ) _).trans ?_
    refine (congrArg (· * _) one_w).trans ?_
    simp [dxAt, duAt, dev]
    ring
  rw [this]
  simp [dev, oneN, Fin.last]
  ring

/-! ## Histories -/

theorem ex_new (timed : Bool) : ∃ o : Obj ℝ ℝ Unit (Fin 1 → ℝ) (Fin 1 → ℝ) 1 1 1, o.xp = 0 ∧ o.up = 0 ∧ o.args = exArgs timed ∧
    World.empty.step exSys (.new (exArgs timed)) = some (⟨[newX exSys], [newU exSys], [o]⟩, none) := by
  obtain ⟨o, ho⟩ := new_def exSys (exArgs timed) le_rfl le_rfl (fun qp s => by simp [exSys, bestSolver, vecSys]) 0 0
  obtain ⟨-, h2, h3, h4, -⟩ := new_ok exSys _ _ _ o ho
  refine ⟨o, h3, h4, h2, ?_⟩
  unfold World.step World.empty
  simp [ho]

/-- A controller with a desired input. -/
theorem ex_setU (timed : Bool) (c : ℝ) : ∃ w : World ℝ ℝ Unit (Fin 1 → ℝ) (Fin 1 → ℝ) 1 1 1,
    World.run exSys [.new (exArgs timed), .setU 0 fun _ _ => c] World.empty = some w ∧ w.objs.length = 1 ∧
    w.Follows 0 (exArgs timed) (fun _ _ => 0) (fun _ _ => 0) fun _ _ => c := by
  obtain ⟨o, h1, h2, h3, h4⟩ := ex_new timed
  refine ⟨⟨[newX exSys], [{ (newU exSys : UCell ℝ (Fin 1 → ℝ)) with udes := fun _ _ => c }], [o]⟩, ?_, rfl, ?_⟩
  · rw [World.run, h4, Option.bind_some, World.run, World.step]
    simp [h2, World.run]
  · exact ⟨o, newX exSys, _, rfl, h3, by rw [h1]; rfl, by rw [h2]; rfl, rfl, rfl, rfl⟩

/-- A controller with weights. -/
theorem ex_setW (timed : Bool) (q qtf r : ℝ) : ∃ w : World ℝ ℝ Unit (Fin 1 → ℝ) (Fin 1 → ℝ) 1 1 1,
    World.run exSys [.new (exArgs timed), .setW 0 (fun _ _ => q) (fun _ _ => qtf) fun _ _ => r] World.empty = some w ∧ w.objs.length = 1 ∧
    w.Follows 0 (exArgs timed) (fun _ _ => 0) (fun _ _ => 0) fun _ _ => 0 := by
  obtain ⟨o, h1, h2, h3, h4⟩ := ex_new timed
  refine ⟨⟨[newX exSys], [newU exSys], [o.setWeights (fun _ _ => q) (fun _ _ => qtf) fun _ _ => r]⟩, ?_, rfl, ?_⟩
  · rw [World.run, h4, Option.bind_some, World.run, World.step]
    rfl
  · exact ⟨_, newX exSys, newU exSys, rfl, h3, by simp [Obj.setWeights, h1], by simp [Obj.setWeights, h2], rfl, rfl, rfl⟩

/-- The primal that holds a deviation. -/
theorem ex_primal (z : QVar (nColloc oneMesh) 1 1 → ℝ) : ∃ v, IsPrimal z v :=
  ((qp_layout (nColloc oneMesh) 1 1 1 1).1 z).exists

/-- **C39 and C40, violated.** After `set_weights` with `R + Qtf ≠ 1` (the default weights have `R = Qtf = 1`), the objective of the
program does not equal the documented cost, even up to a constant, on the deviations that satisfy the constraints. -/
theorem mpc_weights_wrong (q qtf r : ℝ) (h : r + qtf ≠ 1) : ∃ (w : World ℝ ℝ Unit (Fin 1 → ℝ) (Fin 1 → ℝ) 1 1 1) (qp : QPD ℝ),
    World.run exSys [.new (exArgs false), .setW 0 (fun _ _ => q) (fun _ _ => qtf) fun _ _ => r] World.empty = some w ∧
    w.program exSys 0 0 0 = some qp ∧
    ¬∃ c, ∀ (z : QVar (nColloc oneMesh) 1 1 → ℝ) v, IsPrimal z v →
      Feasible (toPbm qp (numV (nColloc oneMesh) 1 1) (numC (nColloc oneMesh) 1 1 1)) v →
      cost (toPbm qp (numV (nColloc oneMesh) 1 1) (numC (nColloc oneMesh) 1 1 1)) v =
        docCost exSys.env oneMesh 1 (fun _ _ => q) (fun _ _ => qtf) (fun _ _ => r) z + c := by
  obtain ⟨w, hw, -, hF⟩ := ex_setW false q qtf r
  obtain ⟨qp, h1, h2, h3⟩ := mpc_program exSys _ w hw 0 _ exSys_isLie (exF_ufn false) (exCr_ufn false) _ _ _ hF 0 0
  rw [exMeshOf] at h3
  refine ⟨w, qp, hw, h1, ?_⟩
  rintro ⟨c, hc⟩
  have key : ∀ s : ℝ, -1 ≤ s → s ≤ 1 → s ^ 2 / 2 = (r * s ^ 2 + qtf * s ^ 2) / 2 + c := by
    intro s a b
    obtain ⟨v, hv⟩ := ex_primal (dev 0 s s)
    obtain ⟨e1, e2⟩ := h3 _ v hv
    have hfe := e1.mpr ⟨(one_horizon false 0 0 0 0 s s).mpr ⟨by ring, rfl⟩, by
      rw [if_neg (by simp [exArgs]), one_running]
      exact fun i => ⟨a, b⟩⟩
    have := (hc _ v hv hfe).symm.trans e2
    have d1 := one_doc q qtf r 0 s s
    have d2 := one_unit 0 s s
    change docCost (lowEnv ℝ) oneMesh 1 _ _ _ _ + c = unitCost (lowEnv ℝ) oneMesh 1 _ at this
    rw [d1, d2] at this
    linarith
  have k0 := key 0 (by norm_num) (by norm_num)
  have k1 := key 1 (by norm_num) (by norm_num)
  apply h
  linarith

/-- **C42, violated.** With the constraint `-1 ≤ u ≤ 1` and the desired input 5, a call reports Optimal and returns an input of at
least 4. -/
theorem mpc_running_wrong : ∃ (w w' : World ℝ ℝ Unit (Fin 1 → ℝ) (Fin 1 → ℝ) 1 1 1) (out : Out (Fin 1 → ℝ) (Fin 1 → ℝ)),
    World.run exSys [.new (exArgs false), .setU 0 fun _ _ => 5] World.empty = some w ∧
    w.step exSys (.call 0 0 0) = some (w', some out) ∧ out.code = .optimal ∧ 4 ≤ out.u 0 := by
  obtain ⟨w, hw, hl, hF⟩ := ex_setU false 5
  obtain ⟨w', out, hstep⟩ := mpc_call_defined exSys _ w hw 0 (by omega) 0 0 (fun qp warm st => bestSolver_total qp warm st)
  have hL : ∀ K, (exArgs false).Kmesh ≤ K → K ≤ (exArgs false).Kmesh + 1 → IsLGR exSys.env K := fun K a b => lowEnv_lgr K a b
  have hopt : out.code = .optimal := by
    obtain ⟨s, r, g1, g2, g3, -⟩ := mpc_output exSys _ w hw 0 _ hL _ _ _ hF 0 0 w' _ hstep
    obtain rfl := Option.some.inj g2
    rw [g3]
    obtain ⟨qp, h1, h2, h3⟩ := mpc_program exSys _ w hw 0 _ exSys_isLie (exF_ufn false) (exCr_ufn false) _ _ _ hF 0 0
    rw [exMeshOf] at h2 h3
    unfold World.answer at g1
    obtain ⟨o, ho, g1⟩ := Option.bind_eq_some_iff.mp g1
    rw [h1, Option.bind_some] at g1
    obtain ⟨p, hp, rfl⟩ := Option.map_eq_some_iff.mp g1
    obtain ⟨v, hv⟩ := ex_primal (dev 0 5 0)
    obtain ⟨e1, e2⟩ := h3 _ v hv
    have hfe := e1.mpr ⟨(one_horizon false 5 0 0 0 5 0).mpr ⟨by ring, rfl⟩, by
      rw [if_neg (by simp [exArgs]), one_running]
      exact fun i => ⟨by simp [dev], by simp [dev]⟩⟩
    have hcost := e2.trans (one_unit 0 5 0)
    have hq := h2.q
    have hl := h2.l
    have main : ∀ a b, a = numV (nColloc oneMesh) 1 1 → b = numC (nColloc oneMesh) 1 1 1 →
        ∃ v : Fin a → ℝ, Feasible (toPbm qp a b) v ∧ ∀ v', Feasible (toPbm qp a b) v' → cost (toPbm qp a b) v ≤ cost (toPbm qp a b) v' := by
      rintro a b rfl rfl
      refine ⟨v, hfe, fun v' hv' => ?_⟩
      rw [hcost]
      have := (h3 (fun q => v' ⟨q.pos, q.pos_lt⟩) v' (fun q hq => rfl)).2
      rw [this]
      have : (0 : ℝ) ≤ unitCost exSys.env oneMesh (exArgs false).tf (fun q : QVar (nColloc oneMesh) 1 1 => v' ⟨q.pos, q.pos_lt⟩) := by
        unfold unitCost
        have h0 : (0 : ℝ) ≤ (exArgs false).tf / 2 := by simp [exArgs]
        refine add_nonneg (mul_nonneg h0 (Finset.sum_nonneg fun i _ => ?_)) (by positivity)
        have hi : wAt exSys.env oneMesh i = 1 := by
          obtain rfl : i = ⟨0, by simp [oneN]⟩ := Subsingleton.elim (α := Fin 1) _ _
          exact one_w
        rw [hi]
        positivity
      simpa using this
    obtain ⟨v1, m1, m2⟩ := main _ _ hq hl
    exact bestSolver_optimal qp _ _ v1 m1 m2 p hp
  have := mpc_running_deviation exSys bestSolver_exact _ w hw 0 _ hL exSys_isLie (exF_ufn false) (exCr_ufn false) (exCr_affine false) rfl _ _ _ hF 0 0 w' out hstep
    hopt 0
  refine ⟨w, w', out, hw, hstep, hopt, ?_⟩
  obtain ⟨v, hv, hin⟩ := this
  have h2 : -1 ≤ v 0 := by simpa [Within, lower, upper, exArgs, exSys, vecSys, vec] using hin.1
  have h3 : 5 + v 0 = out.u 0 := congrFun hv 0
  linarith

/-- The returned input, with a desired input on the object itself or on its copy: C43. The solver answers with zeros. -/
noncomputable def zeroSys : Sys ℝ ℝ Unit (Fin 1 → ℝ) (Fin 1 → ℝ) 1 1 :=
  vecSys 1 1 (lowEnv ℝ) (fun t s => t + s) 0 ⟨(), fun _ => (), fun _ _ => some (), fun qp _ _ => some (⟨.optimal, ⟨qp.q.size, fun _ => 0⟩, ⟨qp.l.size, fun _ => 0⟩⟩, ())⟩

/-- **C43, violated.** Object 1 is a copy of object 0. Setting the desired input of object 1 to 5 changes what object 0 returns from 0
to 5. -/
theorem mpc_copy_wrong : ∃ (w w' v v' : World ℝ ℝ Unit (Fin 1 → ℝ) (Fin 1 → ℝ) 1 1 1) (out out' : Out (Fin 1 → ℝ) (Fin 1 → ℝ)),
    World.run zeroSys [.new (exArgs false), .copy 0] World.empty = some w ∧
    World.run zeroSys [.setU 1 fun _ _ => 5] w = some w' ∧
    w.step zeroSys (.call 0 0 0) = some (v, some out) ∧ w'.step zeroSys (.call 0 0 0) = some (v', some out') ∧
    out.u 0 = 0 ∧ out'.u 0 = 5 := by
  obtain ⟨o, ho⟩ := new_def zeroSys (exArgs false) le_rfl le_rfl (fun qp s => by simp [zeroSys, vecSys]) 0 0
  obtain ⟨-, h2, h3, h4, -⟩ := new_ok zeroSys _ _ _ o ho
  have e0 : World.empty.step zeroSys (.new (exArgs false)) = some (⟨[newX zeroSys], [newU zeroSys], [o]⟩, none) := by
    unfold World.step World.empty
    simp [ho]
  have e1 : World.run zeroSys [.new (exArgs false), .copy 0] World.empty = some ⟨[newX zeroSys], [newU zeroSys], [o, o.copy zeroSys]⟩ := by
    rw [World.run, e0, Option.bind_some, World.run, World.step]
    rfl
  have e2 : World.run zeroSys [.setU 1 fun _ _ => 5] (⟨[newX zeroSys], [newU zeroSys], [o, o.copy zeroSys]⟩ : World ℝ ℝ Unit (Fin 1 → ℝ) (Fin 1 → ℝ) 1 1 1) =
      some ⟨[newX zeroSys], [{ (newU zeroSys : UCell ℝ (Fin 1 → ℝ)) with udes := fun _ _ => 5 }], [o, o.copy zeroSys]⟩ := by
    simp only [World.run, World.step]
    simp [Obj.copy, h4]
  have hL : ∀ K, (exArgs false).Kmesh ≤ K → K ≤ (exArgs false).Kmesh + 1 → IsLGR zeroSys.env K := fun K a b => lowEnv_lgr K a b
  have hT : ∀ qp warm st, ∃ r, zeroSys.solver.solve qp warm st = some r ∧ r.1.primal.size = qp.q.size := fun qp warm st => ⟨_, rfl, rfl⟩
  have key : ∀ (c : ℝ) l (w : World ℝ ℝ Unit (Fin 1 → ℝ) (Fin 1 → ℝ) 1 1 1), World.run zeroSys l World.empty = some w → w.Follows 0 (exArgs false) (fun _ _ => 0) (fun _ _ => 0) (fun _ _ => c) →
      0 < w.objs.length → ∃ v out, w.step zeroSys (.call 0 0 0) = some (v, some out) ∧ out.u 0 = c := by
    intro c l w hw hF hlen
    obtain ⟨v, out, hs⟩ := mpc_call_defined zeroSys l w hw 0 hlen 0 0 hT
    obtain ⟨s, r, g1, g2, -, g3, -⟩ := mpc_output zeroSys l w hw 0 _ hL _ _ _ hF 0 0 v _ hs
    obtain rfl := Option.some.inj g2
    refine ⟨v, out, hs, ?_⟩
    rw [g3]
    unfold World.answer at g1
    obtain ⟨o, -, g1⟩ := Option.bind_eq_some_iff.mp g1
    obtain ⟨qp, -, g1⟩ := Option.bind_eq_some_iff.mp g1
    obtain rfl := Option.some.inj g1
    simp [zeroSys, vecSys, vec]
  have r2 := run_append zeroSys [.new (exArgs false), .copy 0] [.setU 1 fun _ _ => 5] World.empty
  rw [e1, Option.bind_some, e2] at r2
  obtain ⟨v, out, a1, a2⟩ := key 0 _ _ e1 ⟨o, newX zeroSys, newU zeroSys, rfl, h2, by rw [h3]; rfl, by rw [h4]; rfl, rfl, rfl, rfl⟩ (by simp)
  obtain ⟨v', out', b1, b2⟩ := key 5 ([.new (exArgs false), .copy 0] ++ [.setU 1 fun _ _ => 5]) _ r2 ⟨o, newX zeroSys, _, rfl, h2, by rw [h3]; rfl, by rw [h4]; rfl, rfl, rfl, rfl⟩ (by simp)
  exact ⟨_, _, v, v', out, out', e1, e2, a1, b1, a2, b2⟩

/-! ## Hypotheses of the general theorems -/

/-- The hypotheses of `mpc_program`, `mpc_output` and `mpc_running_partial` hold for a controller with a timed constraint and a
desired input. -/
example : ∃ (w w' : World ℝ ℝ Unit (Fin 1 → ℝ) (Fin 1 → ℝ) 1 1 1) (r : Out (Fin 1 → ℝ) (Fin 1 → ℝ)),
    World.run exSys [.new (exArgs true), .setU 0 fun _ _ => 1] World.empty = some w ∧ w.Follows 0 (exArgs true) (fun _ _ => 0) (fun _ _ => 0) (fun _ _ => 1) ∧
    (∀ K, (exArgs true).Kmesh ≤ K → K ≤ (exArgs true).Kmesh + 1 → IsLGR exSys.env K) ∧ Exact exSys.solver ∧
    IsUFn exSys (exArgs true).f ∧ IsUFn exSys (exArgs true).cr ∧ Affine exSys (exArgs true).cr ∧ w.step exSys (.call 0 2 0) = some (w', some r) := by
  obtain ⟨w, hw, hl, hF⟩ := ex_setU true 1
  obtain ⟨w', out, hstep⟩ := mpc_call_defined exSys _ w hw 0 (by omega) 2 0 (fun qp warm st => bestSolver_total qp warm st)
  exact ⟨w, w', out, hw, hF, fun K a b => lowEnv_lgr K a b, bestSolver_exact, exF_ufn true, exCr_ufn true, exCr_affine true, hstep⟩

/-- The desired trajectories of a history: those of `mpc_follows`. -/
example : made ([.new (exArgs true), .setU 0 fun _ _ => 1, .setW 0 0 0 0, .call 0 2 0] : List (Op ℝ ℝ (Fin 1 → ℝ) (Fin 1 → ℝ) 1 1 1)) = [exArgs true] ∧
    lastU 0 ([.new (exArgs true), .setU 0 fun _ _ => 1, .setW 0 0 0 0, .call 0 2 0] : List (Op ℝ ℝ (Fin 1 → ℝ) (Fin 1 → ℝ) 1 1 1)) (fun _ _ => 0) = fun _ _ => 1 :=
  ⟨rfl, rfl⟩

/-- The hypothesis of `mpc_construct_iff`. -/
example : (1 : ℕ) ≤ (exArgs true).Kmesh ∧ ∀ qp s, exSys.solver.analyze qp s ≠ none := ⟨le_rfl, fun qp s => by simp [exSys, bestSolver, vecSys]⟩

/-- The hypotheses of `mpc_input_weight_partial`, with weights that are not the identity. -/
example : ∀ k l : Fin 2, (if k = l then (3 : ℝ) else 0) ≠ 0 → (if k = l then (2 : ℝ) else 0) ≠ 0 := by
  intro k l h
  split_ifs at h ⊢ with hk
  · norm_num
  · exact h

end Verif.MPC
