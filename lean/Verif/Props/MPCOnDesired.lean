import Verif.Props.MPCSolver
import Verif.Props.MPCVec
import Verif.Props.QPZero
import Verif.Proofs.LieZero

/-! # A controller on its desired trajectory (C90) -/

set_option linter.unusedSectionVars false

namespace Verif.MPC

open Verif.Mesh Verif.Sparse Verif.MeshFn Verif.NLP Verif.OQP Verif.QPSpec Verif.Lie Verif.Flatten
open Verif.QP (Ext Status UpperOnly SqrtPos LdltOk)
open scoped Matrix

variable {T σ X U : Type*} {nx nu ncr n m N : ℕ} {env : (n : ℕ) → QP.Env ℝ n} {prm : QP.Params ℝ} {fuel : ℕ}
variable {𝔸 𝔹 : Type*} [NormedRing 𝔸] [NormedAlgebra ℝ 𝔸] [FiniteDimensional ℝ 𝔸] [CompleteSpace 𝔸] [NormedRing 𝔹] [NormedAlgebra ℝ 𝔹]
  [FiniteDimensional ℝ 𝔹] [CompleteSpace 𝔹] {mat : X → 𝔸} {hat : (Fin nx → ℝ) →ₗ[ℝ] 𝔸} {matU : U → 𝔹} {hatU : (Fin nu → ℝ) →ₗ[ℝ] 𝔹}

/-- Assumptions on the linear algebra and the parameters of the solver, for programs of every size: square roots of positive numbers are
positive, the factorisation reads the upper triangle, succeeds on quasi-definite matrices and solves, and the numbers are in the usual
ranges. -/
structure SolverOk (env : (n : ℕ) → QP.Env ℝ n) (prm : QP.Params ℝ) (fuel : ℕ) : Prop where
  upper : ∀ n, UpperOnly (env n)
  sqrt : ∀ n, SqrtPos (env n)
  ldlt : ∀ n, LdltOk (env n)
  finds : ∀ n m (p : QP.Pbm ℝ n m), Lin.PSD p.P → ∀ s : QP.Scaling ℝ n m, s.Pos → (env n).factor m (QP.kkt prm.sigma p s (QP.rhoVec prm p s)) ≠ none
  eps : ∀ n, 0 ≤ (env n).eps
  sigma : 0 < prm.sigma
  rho : 0 < prm.rho
  epsAbs : 0 ≤ prm.epsAbs
  epsRel : 0 ≤ prm.epsRel
  delta : 0 < prm.delta
  check : 2 ≤ prm.stopCheckIter
  iter : ∀ e, prm.maxIter = some e → 2 ≤ e
  fuel : 3 ≤ fuel

theorem slope_zero (env : Mesh.Env ℝ) (r : List (Ival ℝ × ℝ)) (p : ℕ) : slope env r (fun _ => 0) p = 0 := by
  have := slope_sum env r (fun (_ : Fin 0) _ => 0) (fun _ => 0) p
  simpa using this.symm

/-- On the desired trajectory no deviation is needed. -/
theorem zero_horizon {sys : Sys T ℝ σ X U nx nu} (hG : sys.IsLie mat hat matU hatU) {a : Args T ℝ X U nx nu ncr} (hf : IsUFn sys a.f) (hcr : IsUFn sys a.cr)
    {xd : T → X} {dxd : T → Fin nx → ℝ} {ud : T → U} {t : T} {x : X} (h : OnDesired sys (meshOf a) a xd dxd ud t x) :
    Horizon sys (meshOf a) a xd dxd ud t x (fun _ => 0) ∧
    if a.cr.timed then RunningAround sys (meshOf a) a xd ud t (fun _ => 0) else RunningAtDefault sys (meshOf a) a (fun _ => 0) := by
  have hdev : ∀ (i : Fin (nColloc (meshOf a))), OQP.dev (fun _ : QVar (nColloc (meshOf a)) nx nu => (0 : ℝ)) i = fun _ => 0 := by
    intro i
    funext b
    cases b <;> rfl
  refine ⟨⟨fun i k => ?_, ?_⟩, ?_⟩
  · rw [errVel_sum hG hf, hdev, h.dynamics i]
    simp only [dite_eq_ite, ite_self, slope_zero, mul_zero, Finset.sum_const_zero, add_zero, sub_self]
  · rw [h.state]
    funext k
    simp
  · split_ifs with hc
    · intro i k
      rw [expand_sum hG hcr, hdev]
      have := h.running i k
      rw [if_pos hc] at this
      simpa using this
    · intro i k
      rw [expand_sum hG hcr, hdev]
      have := h.running i k
      rw [if_neg hc] at this
      simpa using this

/-- **C90.** If the state is on a desired trajectory that satisfies dynamics and constraints, then, after any history that left the object
without a solution to start from (or with a zero one), the call returns: the code is Optimal, the input is exactly the desired one, the
trajectories are exactly the desired ones, and the next solve starts from zero again. -/
theorem mpc_on_desired (sys : Sys T ℝ (QState ℝ) X U nx nu) (hs : sys.solver = qpObject env prm fuel) (hS : SolverOk env prm fuel) (hnx : prm.scaling = true → 1 ≤ nx)
    (l : List (Op T ℝ X U nx nu ncr)) (w : World T ℝ (QState ℝ) X U nx nu ncr) (hw : World.run sys l World.empty = some w)
    (i : ℕ) (a : Args T ℝ X U nx nu ncr) (hG : sys.IsLie mat hat matU hatU) (hf : IsUFn sys a.f) (hcr : IsUFn sys a.cr)
    (hL : ∀ K, a.Kmesh ≤ K → K ≤ a.Kmesh + 1 → IsLGR sys.env K) (htf : 0 ≤ a.tf) (xd : T → X) (dxd : T → Fin nx → ℝ) (ud : T → U)
    (hF : w.Follows i a xd dxd ud) (hcold : w.ColdAt i) (t : T) (x : X) (hon : OnDesired sys (meshOf a) a xd dxd ud t x) :
    ∃ w' r, w.step sys (.call i t x) = some (w', some r) ∧ r.code = .optimal ∧ r.u = ud (sys.plus t 0) ∧
      (∀ j : Fin (nColloc (meshOf a)), r.uTraj[(j : ℕ)]? = some (ud (nodeTime sys (meshOf a) a.tf t j))) ∧
      (∀ j : Fin (nColloc (meshOf a) + 1), r.xTraj[(j : ℕ)]? = some (xd (nodeTime sys (meshOf a) a.tf t j))) ∧
      w'.Follows i a xd dxd ud ∧ w'.ColdAt i := by
  have hup := hS.upper
  have hinv := run_inv hs hup l _ w empty_inv hw
  obtain ⟨o, xc, uc, h1, h2, h3x, h3u, e3, e4, e5⟩ := hF
  obtain ⟨hi, -⟩ := List.getElem?_eq_some_iff.mp h1
  have hF' : w.Follows i a xd dxd ud := ⟨o, xc, uc, h1, h2, h3x, h3u, e3, e4, e5⟩
  obtain ⟨ho, -, -⟩ := hinv.ok i o h1
  obtain ⟨g1, g2, g3⟩ := hinv.sat i o h1
  obtain ⟨qp, hp, hsz, hprog⟩ := mpc_program sys l w hw i a hG hf hcr xd dxd ud hF' t x
  have hwarm : w.warm i = o.warm := by unfold World.warm; rw [h1]; rfl
  -- the solver returns zero
  have key : ∀ o2, o.transcribe sys ⟨t, xd, dxd⟩ ⟨t, ud⟩ t x = some o2 →
      ∃ r, sys.solver.solve o2.qp o2.warm o2.solver = some r ∧ r.1.primal.size = o2.qp.q.size ∧ r.1.code = .optimal ∧ (∀ j, r.1.primal.val j = 0) ∧ ∀ j, r.1.dual.val j = 0 := by
    intro o2 e2
    obtain ⟨o2', e3', he, hok2, -⟩ := transcribe_spec sys o ho xd dxd ud t x
    obtain rfl := Option.some.inj (e3'.symm.trans e2)
    obtain ⟨hsp, -⟩ := transcribe_sparsity sys o o2' ho g1 _ _ t x rfl rfl e2
    have hm2 : o2'.mesh = meshOf a := by rw [he]; exact ho.meshOf.trans (by rw [h2])
    have ha2 : o2'.args = a := by rw [he]; exact h2
    have hwm2 : o2'.warm = o.warm := by rw [he]
    have hsv2 : o2'.solver = o.solver := by rw [he]
    have hready : Ready prm o2'.qp o2'.solver := by rw [hsv2]; exact g2.congr hsp
    have hqp : o2'.qp = qp := by
      have : w.program sys i t x = some o2'.qp := by
        unfold World.program
        subst e3 e4 e5
        rw [h1, Option.bind_some, h3x, Option.bind_some, h3u, Option.bind_some]
        have e2' : o.transcribe sys { xc with t0 := t } { uc with t0 := t } t x = some o2' := e2
        rw [e2', Option.map_some]
      exact Option.some.inj (this.symm.trans hp)
    have hpb : pbmOf qp (numV (nColloc (meshOf a)) nx nu) (numC (nColloc (meshOf a)) nx ncr nx) =
        toPbm qp (numV (nColloc (meshOf a)) nx nu) (numC (nColloc (meshOf a)) nx ncr nx) := by
      have := pbmOf_eq (m := numC (nColloc (meshOf a)) nx ncr nx) hok2
      rw [hm2, hqp] at this
      exact this
    have hpsd : Lin.PSD (pbmOf qp (numV (nColloc (meshOf a)) nx nu) (numC (nColloc (meshOf a)) nx ncr nx)).P := by
      have := program_psd (m := numC (nColloc (meshOf a)) nx ncr nx) hok2 (by rw [ha2]; exact htf) (by rw [ha2]; exact hL)
      rw [hm2, hqp] at this
      exact this
    have hq0 : (pbmOf qp (numV (nColloc (meshOf a)) nx nu) (numC (nColloc (meshOf a)) nx ncr nx)).q = 0 := by
      funext j
      obtain ⟨v, hv⟩ := QVar.pos_surj j.2
      have := hok2.q
      rw [hm2, hqp] at this
      change qp.q.val j = 0
      rw [← hv]
      exact this v
    have hfeas : Feasible (pbmOf qp (numV (nColloc (meshOf a)) nx nu) (numC (nColloc (meshOf a)) nx ncr nx)) 0 := by
      rw [hpb]
      exact ((hprog (fun _ => 0) 0 (fun v hv => rfl)).1).2 (zero_horizon hG hf hcr hon)
    have hdim : prm.scaling = true → numV (nColloc (meshOf a)) nx nu ≠ 0 ∧ numC (nColloc (meshOf a)) nx ncr nx ≠ 0 := by
      intro hsca
      have := hnx hsca
      unfold numV numC
      constructor
      · have : 0 < nx * (nColloc (meshOf a) + 1) := by positivity
        omega
      · omega
    have hws : warmOf o2'.warm (numV (nColloc (meshOf a)) nx nu) (numC (nColloc (meshOf a)) nx ncr nx) = none ∨
        warmOf o2'.warm (numV (nColloc (meshOf a)) nx nu) (numC (nColloc (meshOf a)) nx ncr nx) = some (0, 0) := by
      rw [hwm2, ← hwarm]
      cases hq : w.warm i with
      | none => exact Or.inl rfl
      | some s =>
        right
        obtain ⟨z1, z2⟩ := hcold s hq
        simp only [warmOf, Option.map_some, Option.some.injEq, Prod.mk.injEq]
        exact ⟨funext fun j => z1 j, funext fun j => z2 j⟩
    have hsol := QP.qp_zero_exact (env _) prm _ fuel (hS.sqrt _) (hS.ldlt _) (hS.eps _) hpsd hq0 hfeas hS.sigma hS.rho hS.epsAbs hS.epsRel hS.delta hS.check hS.iter hdim
      (hS.finds _ _ _ hpsd) hS.fuel _ hws
    have hz : sized o2'.qp o2'.warm o2'.qp.A.cols o2'.qp.A.rows = true := by
      have hi := hok2.inv
      simp only [sized, Bool.and_eq_true, decide_eq_true_eq]
      refine ⟨⟨hi.P.1.trans hi.con.A.2.symm, hi.P.2.trans hi.con.A.2.symm, hi.q.trans hi.con.A.2.symm, trivial, trivial, hi.con.l.trans hi.con.A.1.symm, hi.con.u.trans hi.con.A.1.symm⟩, ?_⟩
      rw [hwm2]
      cases hwm : o.warm with
      | none => rfl
      | some q =>
        rw [Option.all_some, decide_eq_true_eq, hsp.A.cols, hsp.A.rows]
        exact g3 q hwm
    have hk := (solve_sim (fuel := fuel) hup hready o2'.warm).1
    have hfr : ∀ n m, qp.A.cols = n → qp.A.rows = m → ∀ sol, QP.solveQP (env n) prm (pbmOf qp n m) (warmOf o2'.warm n m) fuel = .ok sol →
        (qpFresh env prm fuel).solve o2'.qp o2'.warm () = some (solOf sol, ()) := by
      intro n m hn hm sol hsol
      subst hn hm
      simp only [qpFresh]
      rw [if_pos hz, hqp, hsol]
    rw [hfr _ _ hsz.A.2 hsz.A.1 _ hsol] at hk
    obtain ⟨r, hr, hrr⟩ := Option.map_eq_some_iff.mp hk.symm
    have hr1 : r.1 = solOf _ := congrArg Prod.fst hrr
    refine ⟨r, by rw [hs]; exact hr, ?_, ?_, ?_, ?_⟩
    · rw [hr1, hqp, hsz.q]; rfl
    · rw [hr1]; rfl
    · intro j; rw [hr1]; simp only [solOf, ext]; split_ifs <;> rfl
    · intro j; rw [hr1]; simp only [solOf, ext]; split_ifs <;> rfl
  obtain ⟨w', r, hstep⟩ := call_defined sys w hinv.ok i hi t x fun o' xc' uc' o2 ho' hx' hu' e2 => by
    obtain rfl := Option.some.inj (h1.symm.trans ho')
    obtain rfl := Option.some.inj (h3x.symm.trans hx')
    obtain rfl := Option.some.inj (h3u.symm.trans hu')
    subst e3 e4 e5
    obtain ⟨q, q1, q2, -⟩ := key o2 e2
    exact ⟨q, q1, q2⟩
  obtain ⟨s, r', b1, b2, b3, b4, -, -, -, -, -, b5, b6, b7, -⟩ := mpc_output sys l w hw i a hL xd dxd ud hF' t x w' _ hstep
  obtain rfl := Option.some.inj b2
  obtain ⟨o2, e2, -⟩ := transcribe_spec sys o ho xd dxd ud t x
  obtain ⟨s0, k1, k2, k3, k4, k5⟩ := key o2 e2
  have hss : s = s0.1 := by
    unfold World.answer World.program at b1
    subst e3 e4 e5
    have e2' : o.transcribe sys { xc with t0 := t } { uc with t0 := t } t x = some o2 := e2
    obtain ⟨o2', e3', he, -⟩ := transcribe_spec sys o ho xc.xdes xc.dxdes uc.udes t x
    obtain rfl := Option.some.inj (e3'.symm.trans e2)
    rw [h1, Option.bind_some, Option.bind_some, h3x, Option.bind_some, h3u, Option.bind_some, e2', Option.map_some, Option.bind_some] at b1
    have hwm2 : o2'.warm = o.warm := by rw [he]
    have hsv2 : o2'.solver = o.solver := by rw [he]
    rw [hwm2, hsv2] at k1
    rw [hwarm, k1, Option.map_some] at b1
    exact (Option.some.inj b1).symm
  have hz1 : ∀ j, s.primal.val j = 0 := by rw [hss]; exact k4
  have hz2 : ∀ j, s.dual.val j = 0 := by rw [hss]; exact k5
  have hcode : s.code = .optimal := by rw [hss]; exact k3
  refine ⟨w', r, hstep, b3.trans hcode, ?_, fun j => ?_, fun j => ?_, ?_, ?_⟩
  · rw [b4]
    simp only [hz1]
    exact hG.u.rplus_zero _
  · rw [b5 j]
    simp only [zOf, hz1]
    exact congrArg some (hG.u.rplus_zero _)
  · rw [b6 j]
    simp only [zOf, hz1]
    exact congrArg some (hG.x.rplus_zero _)
  · have hstep' := hstep
    unfold World.step at hstep'
    simp only [h1, h3x, h3u, Option.bind_some] at hstep'
    obtain ⟨c, hc, e⟩ := Option.map_eq_some_iff.mp hstep'
    obtain ⟨o', s', -, -, d1, -, d2, d3, -, -, -, d4, d5, d6, -⟩ := call_spec sys o ho xc uc t x c hc
    cases e
    refine ⟨c.2.2.1, c.1, c.2.1, ?_, ?_, ?_, ?_, ?_, ?_, ?_⟩
    · exact List.getElem?_set_self hi
    · rw [d6]; exact d1.trans h2
    · rw [d6]
      dsimp only
      rw [d2]
      exact List.getElem?_set_self (List.getElem?_eq_some_iff.mp h3x).1
    · rw [d6]
      dsimp only
      rw [d3]
      exact List.getElem?_set_self (List.getElem?_eq_some_iff.mp h3u).1
    · rw [d4]; exact e3
    · rw [d4]; exact e4
    · rw [d5]; exact e5
  · intro q hq
    rcases b7 with ⟨c1, -⟩ | ⟨c1, -⟩
    · rw [c1] at hq
      obtain rfl := Option.some.inj hq
      exact ⟨hz1, hz2⟩
    · rw [c1] at hq
      exact hcold q hq

/-- **C90.** So it stays: as long as the states are on the desired trajectory, every call returns exactly the desired input, Optimal. -/
theorem mpc_stays_on_desired (sys : Sys T ℝ (QState ℝ) X U nx nu) (hs : sys.solver = qpObject env prm fuel) (hS : SolverOk env prm fuel) (hnx : prm.scaling = true → 1 ≤ nx)
    (l : List (Op T ℝ X U nx nu ncr)) (w : World T ℝ (QState ℝ) X U nx nu ncr) (hw : World.run sys l World.empty = some w)
    (i : ℕ) (a : Args T ℝ X U nx nu ncr) (hG : sys.IsLie mat hat matU hatU) (hf : IsUFn sys a.f) (hcr : IsUFn sys a.cr)
    (hL : ∀ K, a.Kmesh ≤ K → K ≤ a.Kmesh + 1 → IsLGR sys.env K) (htf : 0 ≤ a.tf) (xd : T → X) (dxd : T → Fin nx → ℝ) (ud : T → U)
    (hF : w.Follows i a xd dxd ud) (hcold : w.ColdAt i) (cs : List (T × X)) (hon : ∀ c ∈ cs, OnDesired sys (meshOf a) a xd dxd ud c.1 c.2) :
    List.Forall₂ (fun c out => ∃ r, out = some (some r) ∧ r.code = .optimal ∧ r.u = ud (sys.plus c.1 0)) cs (outs sys (cs.map fun c => .call i c.1 c.2) w) := by
  induction cs generalizing l w with
  | nil => exact .nil
  | cons c cs ih =>
    obtain ⟨w', r, h1, h2, h3, -, -, h4, h5⟩ := mpc_on_desired sys hs hS hnx l w hw i a hG hf hcr hL htf xd dxd ud hF hcold c.1 c.2 (hon c List.mem_cons_self)
    simp only [List.map_cons, outs]
    rw [h1]
    refine .cons ⟨r, rfl, h2, h3⟩ (ih (l ++ [.call i c.1 c.2]) w' ?_ h4 h5 fun c hc => hon c (List.mem_cons_of_mem _ hc))
    rw [run_append, hw, Option.bind_some]
    simp only [World.run]
    rw [h1]
    rfl

end Verif.MPC
