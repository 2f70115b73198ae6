import Verif.Spec.MPCSolver
import Verif.Proofs.MPCSolver
import Verif.Props.MPCRun
import Verif.Props.QP
import Verif.Props.QPVerdicts
import Verif.Proofs.OCPNLPBounds

/-! # The controller with its own QP solver (C88, C89) -/

set_option linter.unusedSectionVars false

namespace Verif.MPC

open Verif.Mesh Verif.Sparse Verif.MeshFn Verif.NLP Verif.OQP Verif.QPSpec Verif.Lie Verif.Flatten
open Verif.QP (Ext Status UpperOnly SqrtPos)
open scoped Matrix

variable {T σ X U : Type*} {nx nu ncr n m N : ℕ} {env : (n : ℕ) → QP.Env ℝ n} {prm : QP.Params ℝ} {fuel : ℕ}

/-! ## C88 -/

/-- **C88.** Whatever the history of constructions, copies, assignments, calls, changes of the desired trajectories and of the weights and
resets: the inputs, codes and trajectories that the controllers return, and the first call that does not return, are those of controllers
that make a new QP solver in every call. -/
theorem mpc_reuse (sys : Sys T ℝ (QState ℝ) X U nx nu) (hs : sys.solver = qpObject env prm fuel) (hup : ∀ n, UpperOnly (env n))
    (l : List (Op T ℝ X U nx nu ncr)) : outs sys l World.empty = outs (sys.withSolver (qpFresh env prm fuel)) l World.empty :=
  (outs_sim hs hup l World.empty empty_inv).symm

/-- **C88.** Take an object after any history, and let any calls follow, of it and of other objects, except an assignment to it. The
program that its next call hands to the solver stores the positions of the program it held before, in the same order. With any solver. -/
theorem mpc_sparsity_kept (sys : Sys T ℝ σ X U nx nu) (l : List (Op T ℝ X U nx nu ncr)) (w : World T ℝ σ X U nx nu ncr) (hw : World.run sys l World.empty = some w)
    (i : ℕ) (o : Obj T ℝ σ X U nx nu ncr) (ho : w.objs[i]? = some o) (k : List (Op T ℝ X U nx nu ncr)) (hk : ∀ j, Op.assign i j ∉ k)
    (w' : World T ℝ σ X U nx nu ncr) (hw' : World.run sys k w = some w') (t : T) (x : X) (qp : QPD ℝ) (h : w'.program sys i t x = some qp) : SameSparsity qp o.qp := by
  have hok := run_ok sys l _ w (empty_ok sys) hw
  have hsat := (run_sat sys l World.empty w (empty_ok sys) (fun i o h => by simp [World.empty] at h) hw).1
  obtain ⟨k1, k2⟩ := run_sat sys k w w' hok hsat hw'
  obtain ⟨o', ho', hs⟩ := k2 i hk o ho
  obtain ⟨o'', e1, h⟩ := Option.bind_eq_some_iff.mp h
  rw [ho'] at e1
  obtain rfl := Option.some.inj e1
  obtain ⟨xc, -, h⟩ := Option.bind_eq_some_iff.mp h
  obtain ⟨uc, -, h⟩ := Option.bind_eq_some_iff.mp h
  obtain ⟨o2, e, rfl⟩ := Option.map_eq_some_iff.mp h
  exact (transcribe_sparsity sys o' o2 (run_ok sys k w w' hok hw' i o' ho').1 (k1 i o' ho') _ _ t x rfl rfl e).1.trans hs

/-- **C88.** Likewise the program that the constructor hands to `analyze`, with any solver: it is the one that the new object holds. -/
theorem mpc_sparsity_analysed (sys : Sys T ℝ σ X U nx nu) (a : Args T ℝ X U nx nu ncr) (xp up : ℕ) (o : Obj T ℝ σ X U nx nu ncr) (h : Obj.new sys a xp up = some o) :
    sys.solver.analyze o.qp sys.solver.init = some o.solver := by
  unfold Obj.new at h
  split_ifs at h with hK
  obtain ⟨mesh, hm, h⟩ := Option.bind_eq_some_iff.mp h
  obtain ⟨thetaH, hth, h⟩ := Option.bind_eq_some_iff.mp h
  obtain ⟨gH, hg, h⟩ := Option.bind_eq_some_iff.mp h
  simp only at h
  obtain ⟨s, es, h⟩ := Option.bind_eq_some_iff.mp h
  obtain ⟨s4, eu, h⟩ := Option.bind_eq_some_iff.mp h
  obtain ⟨st, hst, rfl⟩ := Option.map_eq_some_iff.mp h
  exact hst

/-! ## C89 -/

/-- What the object answers is what `solve_qp` answers. -/
theorem solve_ok (hup : ∀ n, UpperOnly (env n)) {qp : QPD ℝ} {s : QState ℝ} (h : Ready prm qp s) {warm : Option (QSol ℝ)} {r} (hr : (qpObject env prm fuel).solve qp warm s = some r)
    (hn : qp.A.cols = n) (hm : qp.A.rows = m) :
    ∃ sol : QP.Sol ℝ n m, QP.solveQP (env n) prm (pbmOf qp n m) (warmOf warm n m) fuel = .ok sol ∧ r.1 = solOf sol := by
  subst hn hm
  have k := (solve_sim (fuel := fuel) hup h warm).1
  rw [hr] at k
  simp only [qpFresh, Option.map_some] at k
  split_ifs at k
  split at k
  · rename_i sol hsol
    exact ⟨sol, hsol, (congrArg Prod.fst (Option.some.inj k)).symm⟩
  · cases k
  · cases k

/-- **C89.** With a limit on the iterations, and more fuel than that, every call on an object returns, after any history. -/
theorem mpc_returns (sys : Sys T ℝ (QState ℝ) X U nx nu) (hs : sys.solver = qpObject env prm fuel) (hup : ∀ n, UpperOnly (env n)) {e : ℕ}
    (hmax : prm.maxIter = some e) (hsc : prm.stopCheckIter ≠ 0) (hfuel : e + 1 ≤ fuel) (hnx : prm.scaling = true → 1 ≤ nx)
    (l : List (Op T ℝ X U nx nu ncr)) (w : World T ℝ (QState ℝ) X U nx nu ncr) (hw : World.run sys l World.empty = some w)
    (i : ℕ) (hi : i < w.objs.length) (t : T) (x : X) : ∃ w' r, w.step sys (.call i t x) = some (w', some r) := by
  have hinv := run_inv hs hup l _ w empty_inv hw
  refine call_defined sys w hinv.ok i hi t x fun o xc uc o' ho _ _ e1 => ?_
  obtain ⟨hok, -, -⟩ := hinv.ok i o ho
  obtain ⟨g1, g2, g3⟩ := hinv.sat i o ho
  obtain ⟨o2, e2, he, hok', -⟩ := transcribe_spec sys o hok xc.xdes xc.dxdes uc.udes t x
  obtain rfl := Option.some.inj (e2.symm.trans e1)
  obtain ⟨hsp, -⟩ := transcribe_sparsity sys o o2 hok g1 _ _ t x rfl rfl e1
  have h1 : o2.solver = o.solver := by rw [he]
  have h2 : o2.warm = o.warm := by rw [he]
  have hr2 : Ready prm o2.qp o2.solver := by rw [h1]; exact g2.congr hsp
  have hz : sized o2.qp o2.warm o2.qp.A.cols o2.qp.A.rows = true := by
    have hi := hok'.inv
    simp only [sized, Bool.and_eq_true, decide_eq_true_eq]
    refine ⟨⟨hi.P.1.trans hi.con.A.2.symm, hi.P.2.trans hi.con.A.2.symm, hi.q.trans hi.con.A.2.symm, trivial, trivial, hi.con.l.trans hi.con.A.1.symm, hi.con.u.trans hi.con.A.1.symm⟩, ?_⟩
    rw [h2]
    cases hwm : o.warm with
    | none => rfl
    | some q =>
      rw [Option.all_some, decide_eq_true_eq, hsp.A.cols, hsp.A.rows]
      exact g3 q hwm
  have hdim : prm.scaling = true → o2.qp.A.cols ≠ 0 ∧ o2.qp.A.rows ≠ 0 := by
    intro hsca
    have := hnx hsca
    rw [hok'.inv.con.A.1, hok'.inv.con.A.2]
    unfold numV numC
    constructor
    · have : 0 < nx * (nColloc o2.mesh + 1) := by positivity
      omega
    · omega
  obtain ⟨sol, hsol, -⟩ := QP.qp_budget_terminates (env := env o2.qp.A.cols) (p := pbmOf o2.qp o2.qp.A.cols o2.qp.A.rows) (ws := warmOf o2.warm o2.qp.A.cols o2.qp.A.rows)
    hmax hsc hdim hfuel
  have hk := (solve_sim (fuel := fuel) hup hr2 o2.warm).1
  have hf : (qpFresh env prm fuel).solve o2.qp o2.warm () = some (solOf sol, ()) := by
    simp only [qpFresh]
    rw [if_pos hz, hsol]
  rw [hf] at hk
  obtain ⟨r, hr, hrr⟩ := Option.map_eq_some_iff.mp hk.symm
  refine ⟨r, by rw [hs]; exact hr, ?_⟩
  rw [(solve_size hr).1, hr2.n, hok'.inv.con.A.2, hok'.inv.q]

/-- The numbers that the solver reads are those of the program: `P` is diagonal. -/
theorem pbmOf_eq {sys : Sys T ℝ σ X U nx nu} {o : Obj T ℝ σ X U nx nu ncr} (ho : o.Ok sys) :
    pbmOf o.qp (numV (nColloc o.mesh) nx nu) m = toPbm o.qp (numV (nColloc o.mesh) nx nu) m := by
  have key : ∀ i j : Fin (numV (nColloc o.mesh) nx nu), o.qp.P.val i j = if i ≤ j then o.qp.P.val i j else o.qp.P.val j i := by
    intro i j
    split_ifs with h
    · rfl
    · obtain ⟨v, hv⟩ := QVar.pos_surj i.2
      obtain ⟨w, hw⟩ := QVar.pos_surj j.2
      rw [← hv, ← hw, ho.P, ho.P]
      have hne : v ≠ w := by
        rintro rfl
        exact h (Fin.le_def.2 (by omega))
      rw [if_neg hne, if_neg hne.symm]
  unfold pbmOf toPbm
  congr 1
  funext i j
  exact key i j

theorem program_psd {sys : Sys T ℝ σ X U nx nu} {o : Obj T ℝ σ X U nx nu ncr} (ho : o.Ok sys) (htf : 0 ≤ o.args.tf)
    (hL : ∀ K, o.args.Kmesh ≤ K → K ≤ o.args.Kmesh + 1 → IsLGR sys.env K) : Lin.PSD (pbmOf o.qp (numV (nColloc o.mesh) nx nu) m).P := by
  have hw : ∀ v : QVar (nColloc o.mesh) nx nu, 0 ≤ unitWt sys.env o.mesh o.args.tf v := by
    intro v
    cases v with
    | x i k =>
      change 0 ≤ (if (i : ℕ) < nColloc o.mesh then o.args.tf * wAt sys.env o.mesh i else 0) + if (i : ℕ) = 0 then 1 / 2 else 0
      split_ifs with h1 h2 h2
      · have := wAt_pos sys.env ho.valid hL ⟨i, h1⟩
        have := mul_nonneg htf this.le
        norm_num at *
        linarith
      · have := wAt_pos sys.env ho.valid hL ⟨i, h1⟩
        have := mul_nonneg htf this.le
        norm_num at *
        linarith
      · norm_num
      · norm_num
    | u i k => exact mul_nonneg htf (wAt_pos sys.env ho.valid hL i).le
  have hP : ∀ i j : Fin (numV (nColloc o.mesh) nx nu), (i ≠ j → o.qp.P.val i j = 0) ∧ 0 ≤ o.qp.P.val i i := by
    intro i j
    obtain ⟨v, hv⟩ := QVar.pos_surj i.2
    obtain ⟨w, hw'⟩ := QVar.pos_surj j.2
    rw [← hv, ← hw', ho.P, ho.P, if_pos rfl]
    refine ⟨fun h => if_neg ?_, hw v⟩
    rintro rfl
    exact h (Fin.ext (by omega))
  constructor
  · refine Matrix.IsSymm.ext fun i j => ?_
    by_cases h : i = j
    · rw [h]
    · exact ((hP j i).1 (Ne.symm h)).trans ((hP i j).1 h).symm
  · intro v
    refine Finset.sum_nonneg fun i _ => ?_
    have : ((pbmOf o.qp (numV (nColloc o.mesh) nx nu) m).P *ᵥ v) i = o.qp.P.val i i * v i := by
      rw [Matrix.mulVec, dotProduct]
      exact Finset.sum_eq_single i (fun j _ hj => by
        have := (hP i j).1 (Ne.symm hj)
        simp only [pbmOf, this, zero_mul]) (fun h => absurd (Finset.mem_univ i) h)
    rw [this]
    have := mul_nonneg (hP i i).2 (mul_self_nonneg (v i))
    linarith [this]

variable {𝔸 𝔹 : Type*} [NormedRing 𝔸] [NormedAlgebra ℝ 𝔸] [FiniteDimensional ℝ 𝔸] [CompleteSpace 𝔸] [NormedRing 𝔹] [NormedAlgebra ℝ 𝔹]
  [FiniteDimensional ℝ 𝔹] [CompleteSpace 𝔹] {mat : X → 𝔸} {hat : (Fin nx → ℝ) →ₗ[ℝ] 𝔸} {matU : U → 𝔹} {hatU : (Fin nu → ℝ) →ₗ[ℝ] 𝔹}

/-- **C89.** A call that reports Optimal, after any history, without polishing: the deviations that it applies satisfy the constraints of
the program up to the primal tolerance `rp`, and cost at most `rd |z' - z|₁ + rp |y|₁` more than those of any trajectory `z'` that
satisfies the linearised dynamics from the current state and the running constraints. -/
theorem mpc_near_optimal (sys : Sys T ℝ (QState ℝ) X U nx nu) (hs : sys.solver = qpObject env prm fuel) (hup : ∀ n, UpperOnly (env n))
    (hsq : ∀ n, SqrtPos (env n)) (hrho : 0 < prm.rho) (hpol : prm.polish = false)
    (l : List (Op T ℝ X U nx nu ncr)) (w : World T ℝ (QState ℝ) X U nx nu ncr) (hw : World.run sys l World.empty = some w)
    (i : ℕ) (a : Args T ℝ X U nx nu ncr) (hG : sys.IsLie mat hat matU hatU) (hf : IsUFn sys a.f) (hcr : IsUFn sys a.cr)
    (hL : ∀ K, a.Kmesh ≤ K → K ≤ a.Kmesh + 1 → IsLGR sys.env K) (htf : 0 ≤ a.tf) (xd : T → X) (dxd : T → Fin nx → ℝ) (ud : T → U)
    (hF : w.Follows i a xd dxd ud) (t : T) (x : X) (w' : World T ℝ (QState ℝ) X U nx nu ncr) (r : Out X U)
    (h : w.step sys (.call i t x) = some (w', some r)) (hc : r.code = .optimal) :
    ∃ qp s rp rd, w.program sys i t x = some qp ∧ w.answer sys i t x = some s ∧
      (∃ b, InBox (toPbm qp (numV (nColloc (meshOf a)) nx nu) (numC (nColloc (meshOf a)) nx ncr nx)) b ∧
        Tol prm.epsAbs prm.epsRel ((toPbm qp (numV (nColloc (meshOf a)) nx nu) (numC (nColloc (meshOf a)) nx ncr nx)).A *ᵥ fun j => s.primal.val j) b b rp ∧
        ∀ k, |((toPbm qp (numV (nColloc (meshOf a)) nx nu) (numC (nColloc (meshOf a)) nx ncr nx)).A *ᵥ fun j => s.primal.val j) k - b k| ≤ rp) ∧
      Tol prm.epsAbs prm.epsRel ((toPbm qp (numV (nColloc (meshOf a)) nx nu) (numC (nColloc (meshOf a)) nx ncr nx)).P *ᵥ fun j => s.primal.val j)
        (toPbm qp (numV (nColloc (meshOf a)) nx nu) (numC (nColloc (meshOf a)) nx ncr nx)).q
        ((toPbm qp (numV (nColloc (meshOf a)) nx nu) (numC (nColloc (meshOf a)) nx ncr nx)).Aᵀ *ᵥ fun j => s.dual.val j) rd ∧
      ∀ (z : QVar (nColloc (meshOf a)) nx nu → ℝ) v, IsPrimal z v → Horizon sys (meshOf a) a xd dxd ud t x z →
        (if a.cr.timed then RunningAround sys (meshOf a) a xd ud t z else RunningAtDefault sys (meshOf a) a z) →
        unitCost sys.env (meshOf a) a.tf (zOf s.primal : QVar (nColloc (meshOf a)) nx nu → ℝ) ≤ unitCost sys.env (meshOf a) a.tf z +
          rd * ∑ j, |v j - s.primal.val j| + rp * ∑ k : Fin (numC (nColloc (meshOf a)) nx ncr nx), |s.dual.val k| := by
  have hinv := run_inv hs hup l _ w empty_inv hw
  obtain ⟨o, qp, s, st, h1, h2, ho, h3, h4, h5, -, -, r', hr', hcode, -⟩ := step_call sys w hinv.ok i a xd dxd ud hF t x w' _ h
  obtain rfl := Option.some.inj hr'
  obtain ⟨o1, o2, e1, -, -, hm, e2, hp⟩ := program_of_follows sys w hinv.ok i a xd dxd ud hF t x
  rw [h1] at e1
  obtain rfl := Option.some.inj e1
  rw [h3] at hp
  obtain rfl := Option.some.inj hp
  obtain ⟨o2', e3, he, hok2, -⟩ := transcribe_spec sys o ho xd dxd ud t x
  obtain rfl := Option.some.inj (e3.symm.trans e2)
  obtain ⟨hsp, -⟩ := transcribe_sparsity sys o o2' ho (hinv.sat i o h1).1 _ _ t x rfl rfl e2
  obtain ⟨qp', hp', hsz, hprog⟩ := mpc_program sys l w hw i a hG hf hcr xd dxd ud hF t x
  rw [h3] at hp'
  obtain rfl := Option.some.inj hp'
  have hm2 : o2'.mesh = meshOf a := by rw [he]; exact hm
  have ha2 : o2'.args = a := by rw [he]; exact h2
  have hready : Ready prm o2'.qp o.solver := (hinv.sat i o h1).2.1.congr hsp
  rw [hs] at h5
  obtain ⟨sol, hsol, hss⟩ := solve_ok hup hready h5 hsz.A.2 hsz.A.1
  have hpb : pbmOf o2'.qp (numV (nColloc (meshOf a)) nx nu) (numC (nColloc (meshOf a)) nx ncr nx) =
      toPbm o2'.qp (numV (nColloc (meshOf a)) nx nu) (numC (nColloc (meshOf a)) nx ncr nx) := by
    have := pbmOf_eq (m := numC (nColloc (meshOf a)) nx ncr nx) hok2
    rw [hm2] at this
    exact this
  have hpsd : Lin.PSD (toPbm o2'.qp (numV (nColloc (meshOf a)) nx nu) (numC (nColloc (meshOf a)) nx ncr nx)).P := by
    have := program_psd (m := numC (nColloc (meshOf a)) nx ncr nx) hok2 (by rw [ha2]; exact htf) (by rw [ha2]; exact hL)
    rw [hm2, hpb] at this
    exact this
  rw [hpb] at hsol
  dsimp only at hss
  have hprim : (fun j : Fin (numV (nColloc (meshOf a)) nx nu) => s.primal.val j) = sol.primal := by
    rw [hss]; funext j; exact ext_fin _ j
  have hdual : (fun j : Fin (numC (nColloc (meshOf a)) nx ncr nx) => s.dual.val j) = sol.dual := by
    rw [hss]; funext j; exact ext_fin _ j
  have hopt : sol.code = .optimal := by
    rw [← hc, hcode, hss]
    rfl
  obtain ⟨⟨b, rp, rd, c1, c2, c3, c4, c5, c6⟩, -⟩ := QP.qp_optimal_certificate (hsq _) hrho hpol hsol hopt
  refine ⟨o2'.qp, s, rp, rd, h3, h4, ⟨b, c1, ?_, ?_⟩, ?_, ?_⟩
  · rw [hprim]; exact c3
  · rw [hprim]; exact c4
  · rw [hprim, hdual]; exact c5
  · intro z v hv hz1 hz2
    have hfeas := ((hprog z v hv).1).2 ⟨hz1, hz2⟩
    have hg := QP.gap_bound hpsd c2 c4 c6 hfeas
    have hcz := (hprog z v hv).2
    have hcs := (hprog (zOf s.primal) sol.primal (fun q hq => by rw [← hprim]; rfl)).2
    rw [← hcz, ← hcs]
    have q1 : ∀ j : Fin (numV (nColloc (meshOf a)) nx nu), s.primal.val j = sol.primal j := fun j => congrFun hprim j
    have q2 : ∀ j : Fin (numC (nColloc (meshOf a)) nx ncr nx), s.dual.val j = sol.dual j := fun j => congrFun hdual j
    simp only [q1, q2]
    linarith

end Verif.MPC
