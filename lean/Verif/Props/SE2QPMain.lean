import Verif.Props.SE2QP
import Verif.Props.QPZeroRow

/-! # The program ocp_se2_qp.cpp (C128) -/

namespace Verif.SE2

open Verif.Mesh Verif.Sparse Verif.MeshFn Verif.NLP Verif.Lie Verif.Flatten Verif.OQP Verif.QP Verif.QPSpec Verif.DI

open scoped Matrix

variable {env : Mesh.Env ℝ} {m : Mesh ℝ} {qp : QPD ℝ}

/-! ### No flat directions -/

theorem Numbers.emptyRow (hn : Numbers env m qp) {c : Fin (numC (nColloc m) 5 2 6)} (hc : (c : ℕ) = 5 * nColloc m + 2 * nColloc m + 0) :
    EmptyRow (toPbm qp (numV (nColloc m) 5 2) (numC (nColloc m) 5 2 6)) c := by
  refine ⟨fun j => ?_, ?_, ?_⟩
  · obtain ⟨v, hv⟩ := QVar.pos_surj j.2
    change qp.A.val c j = 0
    rw [← hv, hc, hn.time]
  · change qp.l.val c = _
    rw [hc, hn.timeB.1]
  · change qp.u.val c = _
    rw [hc, hn.timeB.2]

theorem Numbers.flat (hn : Numbers env m qp) (hB : IsLagrange env) {Kmin Kmax : ℕ} (hK : 1 ≤ Kmin) (hm : Valid Kmin Kmax m)
    (hL : ∀ K, Kmin ≤ K → K ≤ Kmax + 1 → IsLGR env K) (hfine : ∀ p ∈ spans 1 m, p.2 - p.1.tau0 < 1 / 5)
    (d : Fin (numC (nColloc m) 5 2 6) → ℝ) (hd : FlatMult (toPbm qp (numV (nColloc m) 5 2) (numC (nColloc m) 5 2 6)) d)
    (h0 : ∀ i, EmptyRow (toPbm qp (numV (nColloc m) 5 2) (numC (nColloc m) 5 2 6)) i → d i = 0) : d = 0 := by
  obtain ⟨hl1, -, -⟩ := qp_layout (nColloc m) 5 2 2 6
  obtain ⟨z0, hz0, hu0⟩ := regulates_zero hB hK hm hL hfine
  obtain ⟨x0, hx0, -⟩ := hl1 z0
  have hs : StrictPoint (toPbm qp (numV (nColloc m) 5 2) (numC (nColloc m) 5 2 6)) x0 := by
    intro c
    obtain ⟨c', hc'⟩ := QCon.pos_surj c.2
    rw [row_sum qp hx0]
    change (qp.l.val c = _ ∧ qp.u.val c = _) ∨ ((qp.l.val c = _ ∨ ∃ a, qp.l.val c = _ ∧ _) ∧ (qp.u.val c = _ ∨ ∃ a, qp.u.val c = _ ∧ _))
    rw [← hc']
    cases c' with
    | dyn i k =>
      have h1 : slope env (spans 1 m) (coordQ z0 k) i = _ := hz0.moves i k
      left
      simp only [QCon.pos, hn.dyn, (hn.dynB i k).1, (hn.dynB i k).2, h1, sub_self, and_self]
    | cr i k =>
      right
      simp only [QCon.pos, add_assoc, hn.cr, (hn.crB i k).1, (hn.crB i k).2, hu0]
      exact ⟨.inr ⟨-1, rfl, by norm_num⟩, .inr ⟨1, rfl, by norm_num⟩⟩
    | ce k =>
      left
      refine Fin.cases ?_ (fun k => ?_) k
      · have e : (QCon.ce (0 : Fin 6) : QCon (nColloc m) 5 2 6).pos = 5 * nColloc m + 2 * nColloc m + 0 := rfl
        rw [e, hn.timeB.1, hn.timeB.2]
        simp only [hn.time, zero_mul, Finset.sum_const_zero, and_self]
      · have h1 : z0 (.x 0 k) = _ := congrFun hz0.start k
        simp only [QCon.pos, Fin.val_succ, add_comm (k : ℕ) 1, hn.ce, (hn.ceB k).1, (hn.ceB k).2, h1, and_self]
  let D : QCon (nColloc m) 5 2 6 → ℝ := fun c => d ⟨c.pos, c.pos_lt⟩
  have hcr : ∀ i k, D (.cr i k) = 0 := fun i k => flatMult_strict_row hs hd (by
    change qp.l.val (QCon.cr i k : QCon (nColloc m) 5 2 6).pos ≠ qp.u.val (QCon.cr i k : QCon (nColloc m) 5 2 6).pos
    simp only [QCon.pos, add_assoc, (hn.crB i k).1, (hn.crB i k).2]
    intro h
    have := Ext.fin.inj h
    norm_num at this)
  have htime : D (.ce 0) = 0 := h0 _ (hn.emptyRow rfl)
  obtain ⟨Y, ⟨hY0, hY⟩, -⟩ := error_solve hB hK hm hL hfine (fun i k => -D (.dyn i k)) (fun k => D (.ce k.succ))
  obtain ⟨x, hx, -⟩ := hl1 (ofParts Y 0)
  have hterm : ∀ c, d c * ((toPbm qp (numV (nColloc m) 5 2) (numC (nColloc m) 5 2 6)).A *ᵥ x) c = d c ^ 2 := by
    intro c
    obtain ⟨c', hc'⟩ := QCon.pos_surj c.2
    have hD : d c = D c' := congrArg d (Fin.ext hc'.symm)
    rw [row_sum qp hx, ← hc', hD]
    cases c' with
    | dyn i k =>
      have h1 : slope env (spans 1 m) (coordQ (ofParts Y 0) k) i = _ := hY i k
      simp only [QCon.pos, hn.dyn, h1]
      have h2 := errRate_eq (Y i.castSucc) (inputAt (ofParts Y 0) i) k
      have h3 : stateAt (ofParts Y 0) i.castSucc = Y i.castSucc := rfl
      have h4 : (![0, 0, 0, 5 * inputAt (ofParts Y 0) i 0, 5 * inputAt (ofParts Y 0) i 1] : Fin 5 → ℝ) k = 0 := by
        fin_cases k <;> simp [inputAt, ofParts]
      rw [h3, h2, h4]
      ring
    | cr i k => rw [hcr]; ring
    | ce k =>
      refine Fin.cases ?_ (fun k => ?_) k
      · rw [htime]; ring
      · have h1 : Y 0 k = _ := congrFun hY0 k
        simp only [QCon.pos, Fin.val_succ, add_comm (k : ℕ) 1, hn.ce]
        change _ * Y 0 k = _
        rw [h1]
        ring
  have hsum : ∑ c, d c ^ 2 = 0 := by
    rw [← Finset.sum_congr rfl fun c _ => hterm c]
    change d ⬝ᵥ ((toPbm qp (numV (nColloc m) 5 2) (numC (nColloc m) 5 2 6)).A *ᵥ x) = 0
    rw [Matrix.dotProduct_mulVec, ← Matrix.mulVec_transpose, hd.1, zero_dotProduct]
  funext c
  exact pow_eq_zero_iff two_ne_zero |>.1 ((Finset.sum_eq_zero_iff_of_nonneg fun _ _ => sq_nonneg _).1 hsum c (Finset.mem_univ c))

theorem Numbers.best (hn : Numbers env m qp) {z : QVar (nColloc m) 5 2 → ℝ} {x : Fin (numV (nColloc m) 5 2) → ℝ} (hx : IsPrimal z x) :
    QPSpec.Minimiser (toPbm qp (numV (nColloc m) 5 2) (numC (nColloc m) 5 2 6)) x ↔ IsBest env m z := by
  obtain ⟨hl1, hl2, -⟩ := qp_layout (nColloc m) 5 2 2 6
  constructor
  · rintro ⟨h1, h2⟩
    refine ⟨(hn.feasible hx).1 h1, fun z' hz' => ?_⟩
    obtain ⟨x', hx', -⟩ := hl1 z'
    rw [← hn.cost hx, ← hn.cost hx']
    exact h2 x' ((hn.feasible hx').2 hz')
  · rintro ⟨h1, h2⟩
    refine ⟨(hn.feasible hx).2 h1, fun x' hx' => ?_⟩
    obtain ⟨z', hz', -⟩ := hl2 x'
    rw [hn.cost hx, hn.cost hz']
    exact h2 z' ((hn.feasible hz').1 hx')

/-! ### The mesh of the example -/

theorem qpMesh_eq : qpMesh = some ((List.range 10).map fun k : ℕ => (⟨5, (k : ℝ) / 10⟩ : Ival ℝ)) := by
  simp [qpMesh, refinePh, tauf, splitLoop, List.range, List.range.loop, List.insertIdx]
  norm_num

theorem qpMesh_valid : Valid 5 5 ((List.range 10).map fun k : ℕ => (⟨5, (k : ℝ) / 10⟩ : Ival ℝ)) := by
  refine ⟨by simp [List.range, List.range.loop], ?_, fun v hv => ?_, fun v hv => ?_⟩
  · simp [List.range, List.range.loop]
    norm_num
  · obtain ⟨k, hk, rfl⟩ := List.mem_map.1 hv
    have : (k : ℝ) < 10 := by exact_mod_cast List.mem_range.1 hk
    show (k : ℝ) / 10 < 1
    linarith
  · obtain ⟨k, hk, rfl⟩ := List.mem_map.1 hv
    simp

theorem qpMesh_fine : ∀ p ∈ spans 1 ((List.range 10).map fun k : ℕ => (⟨5, (k : ℝ) / 10⟩ : Ival ℝ)), p.2 - p.1.tau0 < 1 / 5 := by
  intro p hp
  simp [List.range, List.range.loop, spans] at hp
  rcases hp with rfl | rfl | rfl | rfl | rfl | rfl | rfl | rfl | rfl | rfl <;> norm_num

theorem lgr56 {env : Mesh.Env ℝ} (h5 : IsLGR env 5) (h6 : IsLGR env 6) : ∀ K, 5 ≤ K → K ≤ 5 + 1 → IsLGR env K := by
  intro K h1 h2
  obtain rfl | rfl : K = 5 ∨ K = 6 := by omega
  · exact h5
  · exact h6

/-! ### The program -/

variable {X 𝔸 : Type*} [NormedRing 𝔸] [NormedAlgebra ℝ 𝔸] [FiniteDimensional ℝ 𝔸] [CompleteSpace 𝔸] {P : PoseOps X ℝ} {mat : X → 𝔸} {hat : (Fin 5 → ℝ) →ₗ[ℝ] 𝔸}

/-- **C128, the program.** No assertion of `ocp_to_qp` fails on the mesh of the example. The quadratic program that the solver reads is the regulation problem of a vehicle to
the desired motion: its feasible points are the deviations that start at rate of turn 0, move as their accelerations say and respect the limits, its cost is their
effort. It has exactly one solution. -/
theorem se2_qp_best (h : IsPose P mat hat) (hp : IsPlane P) (idX : X) (hB : IsLagrange env) (h5 : IsLGR env 5) (h6 : IsLGR env 6) :
    ∃ (m : Mesh ℝ) (qp : QPD ℝ), qpMesh = some m ∧ nColloc m = 50 ∧ qpOf idX env P m = some qp ∧
      (∀ (z : QVar (nColloc m) 5 2 → ℝ) (x : Fin (nvar 5 2 (nColloc m)) → ℝ), IsPrimal z x →
        (QPSpec.Feasible (MPC.pbmOf qp (nvar 5 2 (nColloc m)) (ncon 5 2 6 (nColloc m))) x ↔ Regulates env m z) ∧
        QPSpec.cost (MPC.pbmOf qp (nvar 5 2 (nColloc m)) (ncon 5 2 6 (nColloc m))) x = effort env m z) ∧
      ∃! z, IsBest env m z := by
  have hm := qpMesh_valid
  obtain ⟨qp, e, -, hn⟩ := numbers h hp idX env _ hm.ne_nil fun v hv => le_trans (by norm_num) (hm.degree v hv).1
  refine ⟨_, qp, qpMesh_eq, ?_, e, fun z x hx => ?_, best_unique hn hB (by norm_num) hm (lgr56 h5 h6) qpMesh_fine⟩
  · simp [nColloc, List.range, List.range.loop]
  · have : MPC.pbmOf qp (nvar 5 2 _) (ncon 5 2 6 _) = _ := hn.pbm
    rw [this]
    exact ⟨hn.feasible hx, hn.cost hx⟩

/-- The functions of the result at the nodes: the desired motion moved by the deviation `z`. -/
def AtNodes (P : PoseOps X ℝ) (LU : LieOps (Fin 2 → ℝ) ℝ 2) (env : Mesh.Env ℝ) (m : Mesh ℝ) (fx : ℝ → Option X) (fu : ℝ → Option (Fin 2 → ℝ)) (z : QVar (nColloc m) 5 2 → ℝ) : Prop :=
  (∀ i : Fin (nColloc m + 1), fx (5 * tauAt env m i) = some (P.rplus (xdes P (5 * tauAt env m i)) (stateAt z i))) ∧
  ∀ i : Fin (nColloc m), fu (5 * tauAt env m i) = some (LU.rplus 0 (inputAt z i))

theorem atNodes_of {Kmin Kmax : ℕ} (hK : 1 ≤ Kmin) (hm : Valid Kmin Kmax m) (hL : ∀ K, Kmin ≤ K → K ≤ Kmax + 1 → IsLGR env K) (hB : IsLagrange env) (hS : IsSearch env)
    (LU : LieOps (Fin 2 → ℝ) ℝ 2) {x : Fin (nvar 5 2 (nColloc m)) → ℝ} {z : QVar (nColloc m) 5 2 → ℝ} (hx : IsPrimal z x) :
    AtNodes P LU env m (qpsolToOcpsolG P.toLieOps LU env m (vecOf x) (qpTime P) (qpLin P)).1 (qpsolToOcpsolG P.toLieOps LU env m (vecOf x) (qpTime P) (qpLin P)).2 z := by
  have h := qpsol_nodes_lie P.toLieOps LU env hB hS Kmin Kmax hK m hm hL (vecOf x) (qpTime P) (by rw [qpTime_eq]; norm_num) (qpLin P) z (fun v => by
    have : v.pos < nvar 5 2 (nColloc m) := v.pos_lt
    simp only [vecOf, dif_pos this]
    exact hx v _)
  rw [qpTime_eq] at h ⊢
  have e : (![0, 0] : Fin 2 → ℝ) = 0 := by funext k; fin_cases k <;> rfl
  refine ⟨h.1, fun i => (h.2 i).trans ?_⟩
  change some (LU.rplus ![0, 0] _) = _
  rw [e]
  rfl

theorem qpMain_ok {idX : X} {LU : LieOps (Fin 2 → ℝ) ℝ 2} {qenv : (n : ℕ) → QP.Env ℝ n} {prm : Params ℝ} {fuel : ℕ} (hm : qpMesh = some m) (e : qpOf idX env P m = some qp)
    {sol : Sol ℝ (nvar 5 2 (nColloc m)) (ncon 5 2 6 (nColloc m))}
    (hsol : solveQP (qenv (nvar 5 2 (nColloc m))) prm (MPC.pbmOf qp (nvar 5 2 (nColloc m)) (ncon 5 2 6 (nColloc m))) none fuel = .ok sol) :
    qpMain idX env P LU qenv prm fuel = some (.ok (sol.code, qpsolToOcpsolG P.toLieOps LU env m (vecOf sol.primal) (qpTime P) (qpLin P))) := by
  unfold qpMain
  simp only [hm, Option.bind_some, e, Option.map_some, hsol]

/-- **C128, `main` returns.** With exact square roots and factorisations and positive tolerances (as the default ones, with which the example calls the solver) `main` runs to its
end; the trajectory is at the nodes the desired motion moved by a deviation. -/
theorem se2_qp_returns (h : IsPose P mat hat) (hp : IsPlane P) (idX : X) (hB : IsLagrange env) (hS : IsSearch env) (h5 : IsLGR env 5) (h6 : IsLGR env 6)
    (LU : LieOps (Fin 2 → ℝ) ℝ 2) (qenv : (n : ℕ) → QP.Env ℝ n) (prm : Params ℝ) (hsq : ∀ n, SqrtPos (qenv n)) (hld : ∀ n, LdltOk (qenv n))
    (hf : ∀ (n k : ℕ) (p : Pbm ℝ n k), Lin.PSD p.P → ∀ s : Scaling ℝ n k, s.Pos → (qenv n).factor k (kkt prm.sigma p s (rhoVec prm p s)) ≠ none)
    (ha : 0 < prm.alpha) (ha' : prm.alpha < 2) (hs : 0 < prm.sigma) (hr : 0 < prm.rho) (hsc : 2 ≤ prm.stopCheckIter) (hea : 0 < prm.epsAbs) (her : 0 ≤ prm.epsRel) :
    ∃ m, qpMesh = some m ∧ ∃ N, ∀ fuel, N ≤ fuel → ∃ code fx fu z, qpMain idX env P LU qenv prm fuel = some (.ok (code, fx, fu)) ∧ AtNodes P LU env m fx fu z ∧
      (prm.maxIter = none → prm.maxTime = none → code = .optimal ∨ code = .primalInfeasible ∨ code = .dualInfeasible) := by
  have hm := qpMesh_valid
  have hL := lgr56 h5 h6
  have hfine := qpMesh_fine
  refine ⟨_, qpMesh_eq, ?_⟩
  have hmain := qpMesh_eq
  revert hmain hm hfine
  generalize ((List.range 10).map fun k : ℕ => (⟨5, (k : ℝ) / 10⟩ : Ival ℝ)) = m
  intro hm hfine hmain
  obtain ⟨qp, e, -, hn⟩ := numbers h hp idX env m hm.ne_nil fun v hv => le_trans (by norm_num) (hm.degree v hv).1
  obtain ⟨hl1, hl2, -⟩ := qp_layout (nColloc m) 5 2 2 6
  have hP := hn.psd fun i => wAt_pos env hm hL i
  obtain ⟨zb, hzb, -⟩ := best_unique hn hB (by norm_num) hm hL hfine
  obtain ⟨xb, hxb, -⟩ := hl1 zb
  obtain ⟨N, hN⟩ := qp_terminates_solvable (ws := none) (hsq _) (hld _) hP ha ha' hs hr hea her hsc (fun _ => ⟨by simp [numV], by simp [numC]⟩) (hf _ _ _ hP)
    ⟨xb, (hn.best hxb).2 hzb⟩
  refine ⟨N, fun fuel hfuel => ?_⟩
  obtain ⟨sol, hsol, hcode⟩ := hN fuel hfuel
  obtain ⟨z, hz, -⟩ := hl2 sol.primal
  rw [← hn.pbm] at hsol
  refine ⟨sol.code, _, _, z, ?_, atNodes_of (by norm_num) hm hL hB hS LU hz, hcode⟩
  exact qpMain_ok hmain e hsol

/-- **C128, accuracy.** There are `C` and a threshold such that with smaller tolerances (without polishing and limits, with relative tolerance 0) `main` returns Optimal, and at every
node the trajectory deviates from the desired motion as the best deviation does, up to `C` times the tolerance. -/
theorem se2_qp_accurate (h : IsPose P mat hat) (hp : IsPlane P) (idX : X) (hB : IsLagrange env) (hS : IsSearch env) (h5 : IsLGR env 5) (h6 : IsLGR env 6)
    (LU : LieOps (Fin 2 → ℝ) ℝ 2) : ∃ m, qpMesh = some m ∧ ∃ C e0 : ℝ, 0 ≤ C ∧ 0 < e0 ∧ ∀ (qenv : (n : ℕ) → QP.Env ℝ n) (prm : Params ℝ), (∀ n, SqrtPos (qenv n)) →
      (∀ n, LdltOk (qenv n)) →
      (∀ (n k : ℕ) (p : Pbm ℝ n k), Lin.PSD p.P → ∀ s : Scaling ℝ n k, s.Pos → (qenv n).factor k (kkt prm.sigma p s (rhoVec prm p s)) ≠ none) →
      0 < prm.alpha → prm.alpha < 2 → 0 < prm.sigma → 0 < prm.rho → 2 ≤ prm.stopCheckIter → prm.polish = false → prm.maxIter = none → prm.maxTime = none →
      0 < prm.epsAbs → prm.epsAbs ≤ e0 → prm.epsRel = 0 → prm.epsPrimalInf ≤ e0 → 0 ≤ prm.epsDualInf → prm.epsDualInf ≤ e0 →
      ∃ N, ∀ fuel, N ≤ fuel → ∃ fx fu z zb, qpMain idX env P LU qenv prm fuel = some (.ok (.optimal, fx, fu)) ∧ AtNodes P LU env m fx fu z ∧ IsBest env m zb ∧
        ∀ v, |z v - zb v| ≤ C * prm.epsAbs := by
  have hm := qpMesh_valid
  have hL := lgr56 h5 h6
  have hfine := qpMesh_fine
  refine ⟨_, qpMesh_eq, ?_⟩
  have hmain := qpMesh_eq
  revert hmain hm hfine
  generalize ((List.range 10).map fun k : ℕ => (⟨5, (k : ℝ) / 10⟩ : Ival ℝ)) = m
  intro hm hfine hmain
  obtain ⟨qp, e, -, hn⟩ := numbers h hp idX env m hm.ne_nil fun v hv => le_trans (by norm_num) (hm.degree v hv).1
  obtain ⟨hl1, hl2, -⟩ := qp_layout (nColloc m) 5 2 2 6
  have hP := hn.psd fun i => wAt_pos env hm hL i
  obtain ⟨zb, hzb, hub⟩ := best_unique hn hB (by norm_num) hm hL hfine
  obtain ⟨xb, hxb, hxu⟩ := hl1 zb
  have huniq : ∀ x, QPSpec.Minimiser (toPbm qp (numV (nColloc m) 5 2) (numC (nColloc m) 5 2 6)) x → x = xb := by
    intro x hx
    obtain ⟨z, hz, -⟩ := hl2 x
    have : z = zb := hub z ((hn.best hz).1 hx)
    exact hxu x (this ▸ hz)
  obtain ⟨y, hk⟩ := minimiser_kkt hP.1 ((hn.best hxb).2 hzb)
  have hbs : BoundedSolutions (toPbm qp (numV (nColloc m) 5 2) (numC (nColloc m) 5 2 6)) := by
    refine ⟨∑ j, |xb j|, fun x y hxy j => ?_⟩
    rw [huniq x (kkt_minimiser hP hxy)]
    exact Finset.single_le_sum (f := fun j => |xb j|) (fun _ _ => abs_nonneg _) (Finset.mem_univ j)
  let c : QCon (nColloc m) 5 2 6 := .ce 0
  obtain ⟨C, e0, hC, he0, hall⟩ := qp_small_tolerances_emptyRow hP hk hbs (hn.flat hB (by norm_num) hm hL hfine) (i := ⟨c.pos, c.pos_lt⟩) (by
      rw [(hn.emptyRow (c := ⟨c.pos, c.pos_lt⟩) rfl).2.1]; simp) (by rw [(hn.emptyRow (c := ⟨c.pos, c.pos_lt⟩) rfl).2.2]; simp)
  refine ⟨C, e0, hC, he0, fun qenv prm hsq hld hf ha ha' hs hr hsc hpol hmi hmt hea hle her hpi hd0 hdi => ?_⟩
  obtain ⟨N, hN⟩ := hall (qenv _) prm none (hsq _) (hld _) (fun _ => ⟨by simp [numV], by simp [numC]⟩) (hf _ _ _ hP) ha ha' hs hr hsc hpol hmi hmt hea hle her hpi hd0 hdi
  refine ⟨N, fun fuel hfuel => ?_⟩
  obtain ⟨sol, hsol, hcode, x, y, hx, -, hd, -⟩ := hN fuel hfuel
  obtain ⟨z, hz, -⟩ := hl2 sol.primal
  rw [← hn.pbm] at hsol
  refine ⟨_, _, z, zb, ?_, atNodes_of (by norm_num) hm hL hB hS LU hz, hzb, fun v => ?_⟩
  · rw [← hcode]
    exact qpMain_ok hmain e hsol
  · have h1 := hd ⟨v.pos, v.pos_lt⟩
    rw [huniq x hx, hz v v.pos_lt, hxb v v.pos_lt, abs_sub_comm] at h1
    exact h1

end Verif.SE2
