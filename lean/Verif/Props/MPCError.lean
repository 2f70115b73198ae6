import Verif.Proofs.MPCError
import Verif.Props.MPCAlways
import Verif.Props.QPThreshold

/-!
# How far the answers of a controller are from the solution, and when it finds one (C115)

C89 bounds the cost of an answer by quantities that the answer itself contains, C110 says that calls return and that their problem has one solution at
most. Here: an answer that is called `Optimal` is close to that solution, by a constant times the tolerance, with a constant that the situation determines and
the past does not; and if the problem stays solvable under small disturbances, then small tolerances give such an answer in every call.
-/

set_option linter.unusedSectionVars false

namespace Verif.MPC

open Verif.Mesh Verif.Sparse Verif.MeshFn Verif.NLP Verif.OQP Verif.QPSpec Verif.Lie Verif.Flatten
open Verif.QP (Ext Status UpperOnly SqrtPos LdltOk)
open scoped Matrix

variable {T σ X U : Type*} {nx nu ncr n m N : ℕ} {env : (n : ℕ) → QP.Env ℝ n} {prm : QP.Params ℝ} {fuel : ℕ}
variable {𝔸 𝔹 : Type*} [NormedRing 𝔸] [NormedAlgebra ℝ 𝔸] [FiniteDimensional ℝ 𝔸] [CompleteSpace 𝔸] [NormedRing 𝔹] [NormedAlgebra ℝ 𝔹]
  [FiniteDimensional ℝ 𝔹] [CompleteSpace 𝔹] {mat : X → 𝔸} {hat : (Fin nx → ℝ) →ₗ[ℝ] 𝔸} {matU : U → 𝔹} {hatU : (Fin nu → ℝ) →ₗ[ℝ] 𝔹}

/-- The program of a situation, in some history. -/
def IsProgram (sys : Sys T ℝ σ X U nx nu) (a : Args T ℝ X U nx nu ncr) (xd : T → X) (dxd : T → Fin nx → ℝ) (ud : T → U) (t : T) (x : X)
    (p : QP.Pbm ℝ (numV (nColloc (meshOf a)) nx nu) (numC (nColloc (meshOf a)) nx ncr nx)) : Prop :=
  ∃ (s : Solver ℝ (QState ℝ)) (o o' : Obj T ℝ (QState ℝ) X U nx nu ncr), o.Ok (sys.withSolver s) ∧ o.args = a ∧
    o.transcribe (sys.withSolver s) ⟨t, xd, dxd⟩ ⟨t, ud⟩ t x = some o' ∧
    p = toPbm o'.qp (numV (nColloc (meshOf a)) nx nu) (numC (nColloc (meshOf a)) nx ncr nx)

theorem IsProgram.eq {sys : Sys T ℝ σ X U nx nu} {a : Args T ℝ X U nx nu ncr} {xd : T → X} {dxd : T → Fin nx → ℝ} {ud : T → U} {t : T} {x : X}
    {p p' : QP.Pbm ℝ (numV (nColloc (meshOf a)) nx nu) (numC (nColloc (meshOf a)) nx ncr nx)} (h : IsProgram sys a xd dxd ud t x p)
    (h' : IsProgram sys a xd dxd ud t x p') : p = p' := by
  obtain ⟨s, o, o2, h1, h2, h3, rfl⟩ := h
  obtain ⟨s', o', o2', h1', h2', h3', rfl⟩ := h'
  exact program_det sys s s' a xd dxd ud t x o o' o2 o2' h1 h1' h2 h2' h3 h3'

theorem isLie_with {sys : Sys T ℝ σ X U nx nu} (hG : sys.IsLie mat hat matU hatU) (s : Solver ℝ (QState ℝ)) : (sys.withSolver s).IsLie mat hat matU hatU :=
  ⟨hG.x, hG.u, hG.comm, hG.pat, hG.rminus⟩

theorem admissible_with {sys : Sys T ℝ σ X U nx nu} (s : Solver ℝ (QState ℝ)) {a : Args T ℝ X U nx nu ncr} {xd : T → X} {dxd : T → Fin nx → ℝ} {ud : T → U} {t : T} {x : X}
    {z : QVar (nColloc (meshOf a)) nx nu → ℝ} : Admissible (sys.withSolver s) a xd dxd ud t x z ↔ Admissible sys a xd dxd ud t x z :=
  ⟨fun h => ⟨⟨h.1.dynamics, h.1.initial⟩, h.2⟩, fun h => ⟨⟨h.1.dynamics, h.1.initial⟩, h.2⟩⟩

/-- What the program of a situation says. -/
theorem isProgram_spec {sys : Sys T ℝ σ X U nx nu} {a : Args T ℝ X U nx nu ncr} (hG : sys.IsLie mat hat matU hatU) (hf : IsUFn sys a.f) (hcr : IsUFn sys a.cr)
    (hL : ∀ K, a.Kmesh ≤ K → K ≤ a.Kmesh + 1 → IsLGR sys.env K) (htf : 0 ≤ a.tf) {xd : T → X} {dxd : T → Fin nx → ℝ} {ud : T → U} {t : T} {x : X}
    {p : QP.Pbm ℝ (numV (nColloc (meshOf a)) nx nu) (numC (nColloc (meshOf a)) nx ncr nx)} (h : IsProgram sys a xd dxd ud t x p) :
    Lin.PSD p.P ∧ p.q = 0 ∧ (∀ (z : QVar (nColloc (meshOf a)) nx nu → ℝ) v, IsPrimal z v →
      (Feasible p v ↔ Admissible sys a xd dxd ud t x z) ∧ QPSpec.cost p v = unitCost sys.env (meshOf a) a.tf z) ∧
    (1 ≤ nx → ∃ i, p.l i ≠ .neg ∧ p.u i ≠ .pos) ∧ (Robust sys a xd dxd ud t x → ∀ d, QP.FlatMult p d → d = 0) := by
  obtain ⟨s, o, o2, h1, h2, h3, rfl⟩ := h
  have hm : o.mesh = meshOf a := by rw [h1.meshOf, h2]
  have hsp := program_spec (sys.withSolver s) o h1 (isLie_with hG s) (by rw [h2]; exact hf) (by rw [h2]; exact hcr) xd dxd ud t x o2 h3
  have hrs := robust_shift (sys.withSolver s) a (isLie_with hG s) hf hcr xd dxd ud t x
  obtain ⟨o2', e3, he, hok2, -, -, -, -, -, hEl, hEu⟩ := transcribe_spec (sys.withSolver s) o h1 xd dxd ud t x
  obtain rfl := Option.some.inj (e3.symm.trans h3)
  have hm2 : o2'.mesh = meshOf a := by rw [he]; exact hm
  have ha2 : o2'.args = a := by rw [he]; exact h2
  rw [hm, h2] at hsp
  rw [hm] at hEl hEu
  refine ⟨?_, ?_, fun z v hv => ⟨(hsp.2 z v hv).1.trans (admissible_with s), (hsp.2 z v hv).2⟩, fun hn => ?_, fun hR d hd => ?_⟩
  · have := program_psd (m := numC (nColloc (meshOf a)) nx ncr nx) hok2 (by rw [ha2]; exact htf) (by rw [ha2]; exact hL)
    rw [pbmOf_eq hok2, hm2] at this
    exact this
  · funext j
    have hj : (j : ℕ) < numV (nColloc o2'.mesh) nx nu := lt_of_lt_of_eq j.2 (by rw [hm2])
    obtain ⟨v, hv⟩ := QVar.pos_surj hj
    change o2'.qp.q.val j = 0
    rw [← hv]
    exact hok2.q v
  · refine ⟨⟨(QCon.ce ⟨0, hn⟩ : QCon (nColloc (meshOf a)) nx ncr nx).pos, QCon.pos_lt _⟩, ?_, ?_⟩
    · change o2'.qp.l.val (nx * nColloc (meshOf a) + ncr * nColloc (meshOf a) + (⟨0, hn⟩ : Fin nx)) ≠ _
      rw [hEl]; simp
    · change o2'.qp.u.val (nx * nColloc (meshOf a) + ncr * nColloc (meshOf a) + (⟨0, hn⟩ : Fin nx)) ≠ _
      rw [hEu]; simp
  · have hR' : Robust (sys.withSolver s) a xd dxd ud t x := by
      obtain ⟨δ, hδ, k⟩ := hR
      refine ⟨δ, hδ, fun r c e hr hc he => ?_⟩
      obtain ⟨z, hz⟩ := k r c e hr hc he
      exact ⟨z, ⟨hz.dynamics, hz.initial, hz.running⟩⟩
    obtain ⟨δ, hδ, k⟩ := hrs hR' o o2' h1 h2 h3
    exact QP.flatMult_shifted hδ k hd

/-- A call, its program and its answer. -/
theorem call_answer (sys : Sys T ℝ σ X U nx nu) (hup : ∀ n, UpperOnly (env n))
    (l : List (Op T ℝ X U nx nu ncr)) (w : World T ℝ (QState ℝ) X U nx nu ncr) (hw : World.run (sys.withSolver (qpObject env prm fuel)) l World.empty = some w)
    (i : ℕ) (a : Args T ℝ X U nx nu ncr) (xd : T → X) (dxd : T → Fin nx → ℝ) (ud : T → U) (hF : w.Follows i a xd dxd ud) (t : T) (x : X) {fuel' : ℕ}
    (w' : World T ℝ (QState ℝ) X U nx nu ncr) (r : Out X U) (h : w.step (sys.withSolver (qpObject env prm fuel')) (.call i t x) = some (w', some r)) :
    ∃ p s ws, ∃ sol : QP.Sol ℝ (numV (nColloc (meshOf a)) nx nu) (numC (nColloc (meshOf a)) nx ncr nx), IsProgram sys a xd dxd ud t x p ∧
      w.answer (sys.withSolver (qpObject env prm fuel')) i t x = some s ∧ QP.solveQP (env _) prm p ws fuel' = .ok sol ∧
      (∀ j : Fin (numV (nColloc (meshOf a)) nx nu), s.primal.val j = sol.primal j) ∧ r.code = sol.code ∧
      ∃ d : Fin nu → ℝ, seg s.primal (nx * (nColloc (meshOf a) + 1)) nu = some d ∧ r.u = sys.LU.rplus (ud (sys.plus t 0)) d := by
  have hinv : WInv prm (sys.real env prm fuel') w := wInv_fuel (run_inv (sys := sys.real env prm fuel) rfl hup l _ w empty_inv hw)
  obtain ⟨o, qp, s, st, h1, h2, ho, h3, h4, h5, -, -, r', hr', hcode, -, -, d, hd, hdu⟩ := step_call (sys.real env prm fuel') w hinv.ok i a xd dxd ud hF t x w' _ h
  obtain rfl := Option.some.inj hr'
  obtain ⟨o1, o2, e1, -, -, hm, e2, hp⟩ := program_of_follows (sys.real env prm fuel') w hinv.ok i a xd dxd ud hF t x
  rw [h1] at e1
  obtain rfl := Option.some.inj e1
  rw [h3] at hp
  obtain rfl := Option.some.inj hp
  obtain ⟨o2', e3, he, hok2, -⟩ := transcribe_spec (sys.real env prm fuel') o ho xd dxd ud t x
  obtain rfl := Option.some.inj (e3.symm.trans e2)
  obtain ⟨hsp, -⟩ := transcribe_sparsity (sys.real env prm fuel') o o2' ho (hinv.sat i o h1).1 _ _ t x rfl rfl e2
  have hm2 : o2'.mesh = meshOf a := by rw [he]; exact hm
  have hready : Ready prm o2'.qp o.solver := (hinv.sat i o h1).2.1.congr hsp
  have hcols : o2'.qp.A.cols = numV (nColloc (meshOf a)) nx nu := by rw [hok2.inv.con.A.2, hm2]
  have hrows : o2'.qp.A.rows = numC (nColloc (meshOf a)) nx ncr nx := by rw [hok2.inv.con.A.1, hm2]
  obtain ⟨sol, hsol, hss⟩ := solve_ok hup hready h5 hcols hrows
  have hpb := pbmOf_eq (m := numC (nColloc (meshOf a)) nx ncr nx) hok2
  rw [hm2] at hpb
  rw [hpb] at hsol
  dsimp only at hss
  refine ⟨_, s, _, sol, ⟨qpObject env prm fuel', o, o2', ho, h2, e2, rfl⟩, h4, hsol, fun j => ?_, ?_, d, hd, hdu⟩
  · rw [hss]; exact ext_fin _ j
  · rw [hcode, hss]; rfl

/-- **C115, distance.** For each situation (system, arguments, desired trajectories, time and state) there are a constant and a threshold such that, in every
history and for all parameters and linear solvers with a tolerance below the threshold, a call that reports `Optimal` applies deviations that are within
the constant times the tolerance of a solution of the problem of C39, in all states and inputs of the horizon; in particular there is one. -/
theorem mpc_error_bound (sys : Sys T ℝ σ X U nx nu) (a : Args T ℝ X U nx nu ncr) (hG : sys.IsLie mat hat matU hatU) (hf : IsUFn sys a.f) (hcr : IsUFn sys a.cr)
    (hL : ∀ K, a.Kmesh ≤ K → K ≤ a.Kmesh + 1 → IsLGR sys.env K) (htf : 0 ≤ a.tf) (xd : T → X) (dxd : T → Fin nx → ℝ) (ud : T → U) (t : T) (x : X) :
    ∃ C e0 : ℝ, 0 ≤ C ∧ 0 < e0 ∧ ∀ (env : (n : ℕ) → QP.Env ℝ n) (prm : QP.Params ℝ) (fuel fuel' : ℕ) (l : List (Op T ℝ X U nx nu ncr))
      (w w' : World T ℝ (QState ℝ) X U nx nu ncr) (i : ℕ) (r : Out X U), (∀ n, UpperOnly (env n)) → (∀ n, SqrtPos (env n)) → 0 < prm.rho → prm.polish = false →
      prm.epsRel = 0 → 0 ≤ prm.epsAbs → prm.epsAbs ≤ e0 → World.run (sys.withSolver (qpObject env prm fuel)) l World.empty = some w →
      w.Follows i a xd dxd ud → w.step (sys.withSolver (qpObject env prm fuel')) (.call i t x) = some (w', some r) → r.code = .optimal →
      ∃ s z, w.answer (sys.withSolver (qpObject env prm fuel')) i t x = some s ∧ Best sys a xd dxd ud t x z ∧
        (∀ v : QVar (nColloc (meshOf a)) nx nu, |z v - zOf s.primal v| ≤ C * prm.epsAbs) ∧
        ∃ d : Fin nu → ℝ, r.u = sys.LU.rplus (ud (sys.plus t 0)) d ∧ ∀ (h0 : 0 < nColloc (meshOf a)) k, |z (.u ⟨0, h0⟩ k) - d k| ≤ C * prm.epsAbs := by
  by_cases hex : ∃ p, IsProgram sys a xd dxd ud t x p
  swap
  · refine ⟨0, 1, le_rfl, one_pos, fun env prm fuel fuel' l w w' i r hup hsq hrho hpol her hea hle hw hF h hc => absurd ?_ hex⟩
    obtain ⟨p, _, _, _, hp, -⟩ := call_answer sys hup l w hw i a xd dxd ud hF t x w' r h
    exact ⟨p, hp⟩
  obtain ⟨p, hp⟩ := hex
  obtain ⟨hpsd, -, hprog, -⟩ := isProgram_spec hG hf hcr hL htf hp
  obtain ⟨C, hC, hb⟩ := QP.qp_error_bound_abs p.P p.A
  obtain ⟨e0, he0, hb⟩ := hb p.q p.l p.u
  refine ⟨C, e0, hC, he0, fun env prm fuel fuel' l w w' i r hup hsq hrho hpol her hea hle hw hF h hc => ?_⟩
  obtain ⟨p', s, ws, sol, hp', hs, hsol, hprim, hcode, d, hd, hdu⟩ := call_answer sys hup l w hw i a xd dxd ud hF t x w' r h
  obtain rfl := hp.eq hp'
  obtain ⟨v, y, -, hmin, hv, -⟩ := hb (env _) prm ws fuel' sol (hsq _) hrho hpol hea her hle hsol (hcode.symm.trans hc)
  have hmin := hmin hpsd
  obtain ⟨z, hz, -⟩ := (qp_layout (nColloc (meshOf a)) nx nu ncr nx).2.1 v
  have hnear : ∀ q : QVar (nColloc (meshOf a)) nx nu, |z q - zOf s.primal q| ≤ C * prm.epsAbs := fun q => by
    have := hv ⟨q.pos, q.pos_lt⟩
    rw [hz q q.pos_lt, ← hprim] at this
    exact this
  refine ⟨s, z, hs, ⟨(hprog z v hz).1.1 hmin.1, fun z' hz' => ?_⟩, hnear, d, hdu, fun h0 k => ?_⟩
  · obtain ⟨v', hv', -⟩ := (qp_layout (nColloc (meshOf a)) nx nu ncr nx).1 z'
    rw [← (hprog z v hz).2, ← (hprog z' v' hv').2]
    exact hmin.2 v' ((hprog z' v' hv').1.2 hz')
  · have hd' : d k = s.primal.val (nx * (nColloc (meshOf a) + 1) + k) := by
      unfold seg at hd
      split_ifs at hd
      rw [← Option.some.inj hd]
    have := hnear (.u ⟨0, h0⟩ k)
    unfold zOf at this
    simp only [QVar.pos, Nat.mul_zero, Nat.zero_add] at this
    rw [hd']
    exact this

/-- **C115, verdicts.** If moreover the problem stays solvable under all small disturbances, then there is a threshold such that with tolerances below it and
without limits every call, in every history, returns, reports `Optimal` and applies an input within the constant times the tolerance of the one solution. -/
theorem mpc_small_tolerances_solve (sys : Sys T ℝ σ X U nx nu) (hnx : 1 ≤ nx) (a : Args T ℝ X U nx nu ncr) (hG : sys.IsLie mat hat matU hatU) (hf : IsUFn sys a.f)
    (hcr : IsUFn sys a.cr) (hL : ∀ K, a.Kmesh ≤ K → K ≤ a.Kmesh + 1 → IsLGR sys.env K) (hB : IsLagrange sys.env) (htf : 0 < a.tf) (hsz : nu ≤ nx)
    (xd : T → X) (dxd : T → Fin nx → ℝ) (ud : T → U) (t : T) (x : X) (hR : Robust sys a xd dxd ud t x) :
    ∃ (C e0 : ℝ) (z : QVar (nColloc (meshOf a)) nx nu → ℝ), 0 ≤ C ∧ 0 < e0 ∧ ∀ (env : (n : ℕ) → QP.Env ℝ n) (prm : QP.Params ℝ) (fuel : ℕ)
      (l : List (Op T ℝ X U nx nu ncr)) (w : World T ℝ (QState ℝ) X U nx nu ncr) (i : ℕ), Solves env prm → prm.polish = false → prm.maxIter = none → prm.maxTime = none →
      prm.epsRel = 0 → prm.epsAbs ≤ e0 → prm.epsPrimalInf ≤ e0 → prm.epsDualInf ≤ e0 →
      World.run (sys.withSolver (qpObject env prm fuel)) l World.empty = some w → w.Follows i a xd dxd ud →
      ∃ N w' r, (∀ fuel', N ≤ fuel' → w.step (sys.withSolver (qpObject env prm fuel')) (.call i t x) = some (w', some r)) ∧ r.code = .optimal ∧
        (Best sys a xd dxd ud t x z ∧ ∀ z', Best sys a xd dxd ud t x z' → z' = z) ∧
        ∃ d : Fin nu → ℝ, r.u = sys.LU.rplus (ud (sys.plus t 0)) d ∧ ∀ (h0 : 0 < nColloc (meshOf a)) k, |z (.u ⟨0, h0⟩ k) - d k| ≤ C * prm.epsAbs := by
  by_cases hex : ∃ (env : (n : ℕ) → QP.Env ℝ n) (prm : QP.Params ℝ) (fuel : ℕ) (l : List (Op T ℝ X U nx nu ncr))
      (w : World T ℝ (QState ℝ) X U nx nu ncr) (i : ℕ), World.run (sys.withSolver (qpObject env prm fuel)) l World.empty = some w ∧ w.Follows i a xd dxd ud
  swap
  · exact ⟨0, 1, 0, le_rfl, one_pos, fun env prm fuel l w i _ _ _ _ _ _ _ _ hw hF => absurd ⟨env, prm, fuel, l, w, i, hw, hF⟩ hex⟩
  obtain ⟨env0, prm0, fuel0, l0, w0, i0, hw0, hF0⟩ := hex
  obtain ⟨C, e1, hC, he1, hbound⟩ := mpc_error_bound sys a hG hf hcr hL htf.le xd dxd ud t x
  have huniq := mpc_unique (sys.withSolver (qpObject env0 prm0 fuel0)) l0 w0 hw0 i0 a (isLie_with hG _) hf hcr hL hB htf xd dxd ud hF0 t x
  simp only [admissible_with] at huniq
  have hprog0 : ∃ p, IsProgram sys a xd dxd ud t x p := by
    obtain ⟨o, o', _, h1, h2, _, h3, _⟩ := program_of_follows (sys.withSolver (qpObject env0 prm0 fuel0)) w0 (run_ok _ l0 _ w0 (empty_ok _) hw0) i0 a xd dxd ud hF0 t x
    exact ⟨_, _, o, o', h1, h2, h3, rfl⟩
  obtain ⟨p, hp⟩ := hprog0
  obtain ⟨hpsd, hq, hprog, hrow, hflat⟩ := isProgram_spec hG hf hcr hL htf.le hp
  obtain ⟨row, hrl, hru⟩ := hrow hnx
  have hadm : ∃ z, Admissible sys a xd dxd ud t x z := by
    obtain ⟨δ, hδ, k⟩ := hR
    obtain ⟨z, hz⟩ := k 0 0 0 (fun _ _ => by simp [hδ.le]) (fun _ => by simp [hδ.le]) (fun _ _ => by simp [hδ.le])
    refine ⟨z, ⟨⟨fun i k => ?_, ?_⟩, ?_⟩⟩
    · have := hz.dynamics i k
      simpa using this
    · have := hz.initial
      simpa using this
    · have hr := hz.running
      cases ht : a.cr.timed with
      | true =>
        simp only [ht, if_true, Pi.zero_apply, add_zero] at hr ⊢
        exact hr
      | false =>
        simp only [ht, Bool.false_eq_true, if_false, Pi.zero_apply, add_zero] at hr ⊢
        exact hr
  obtain ⟨z0, hz0⟩ := hadm
  obtain ⟨z, hz, hz1⟩ := huniq.resolve_left fun h => h z0 hz0
  have hbest : Best sys a xd dxd ud t x z := hz
  have hz1 : ∀ z', Best sys a xd dxd ud t x z' → z' = z := hz1
  obtain ⟨hl1, hl2, -⟩ := qp_layout (nColloc (meshOf a)) nx nu ncr nx
  obtain ⟨v, hv, -⟩ := hl1 z
  have hvm : Minimiser p v := by
    refine ⟨(hprog z v hv).1.2 hz.1, fun v' hv' => ?_⟩
    obtain ⟨z', hz', -⟩ := hl2 v'
    rw [(hprog z v hv).2, (hprog z' v' hz').2]
    exact hz.2 z' ((hprog z' v' hz').1.1 hv')
  obtain ⟨y, hk⟩ := QP.minimiser_kkt hpsd.1 hvm
  have hbs : QP.BoundedSolutions p := by
    refine ⟨∑ j, |v j|, fun v' y' hk' j => ?_⟩
    have hm' := QP.kkt_minimiser hpsd hk'
    obtain ⟨z', hz', -⟩ := hl2 v'
    have hb' : Best sys a xd dxd ud t x z' := ⟨(hprog z' v' hz').1.1 hm'.1, fun z2 h2 => by
      obtain ⟨v2, hv2, -⟩ := hl1 z2
      rw [← (hprog z' v' hz').2, ← (hprog z2 v2 hv2).2]
      exact hm'.2 v2 ((hprog z2 v2 hv2).1.2 h2)⟩
    have hzz := hz1 z' hb'
    obtain ⟨q, hqp⟩ := QVar.pos_surj j.2
    have hj : j = ⟨q.pos, q.pos_lt⟩ := Fin.ext hqp.symm
    have h3 : v' j = v j := by rw [hj, hz' q q.pos_lt, hv q q.pos_lt, hzz]
    rw [h3]
    exact Finset.single_le_sum (f := fun j => |v j|) (fun _ _ => abs_nonneg _) (Finset.mem_univ j)
  obtain ⟨e2, he2, k2⟩ := QP.threshold_primal ⟨v, hvm.1⟩ (hflat hR)
  obtain ⟨e3, he3, k3⟩ := QP.qp_threshold_dual_partial hpsd.1 hk hbs
  refine ⟨C, min e1 (min e2 e3), z, hC, lt_min he1 (lt_min he2 he3), fun env prm fuel l w i hS hpol hmi hmt her hea hepi hedi hw hF => ?_⟩
  have hinv := run_inv (sys := sys.real env prm fuel) rfl hS.upper l _ w empty_inv hw
  obtain ⟨o, o', ho1, ho2, ho3, -, -, -⟩ := program_of_follows (sys.real env prm fuel) w hinv.ok i a xd dxd ud hF t x
  have hkm : 1 ≤ a.Kmesh := by rw [← ho3]; exact ho2.kmesh
  obtain ⟨hi, -⟩ := List.getElem?_eq_some_iff.mp ho1
  obtain ⟨N, w', r, hstep, hver⟩ := call_always hS (fun _ => hnx) sys w (fun _ => wInv_fuel hinv) i hi (fun o1 h1 => by
    rw [ho1] at h1
    obtain rfl := Option.some.inj h1
    rw [ho3]
    exact ⟨hkm, hsz, htf.le, hL⟩) t x
  have hopt : r.code = .optimal := by
    obtain ⟨p', s, ws, sol, hp', hs, hsol, hprim, hcode, -⟩ := call_answer sys hS.upper l w hw i a xd dxd ud hF t x w' r (hstep N le_rfl)
    obtain rfl := hp.eq hp'
    rcases hver hmi hmt with h | h | h
    · exact h
    · exact absurd (hcode.symm.trans h) (k2 (env _) prm ws N sol (hepi.trans ((min_le_right _ _).trans (min_le_left _ _))) hsol)
    · rcases (k3 (env _) prm ws N sol hS.epsDualInf.le (hedi.trans ((min_le_right _ _).trans (min_le_right _ _))) hsol (hcode.symm.trans h)).2 row with h | h
      · exact absurd h hrl
      · exact absurd h hru
  obtain ⟨s, z', -, hb', -, d, hdu, hd⟩ := hbound env prm fuel N l w w' i r hS.upper hS.sqrt hS.rho hpol her hS.epsAbs.le (hea.trans (min_le_left _ _)) hw hF
    (hstep N le_rfl) hopt
  obtain rfl := hz1 z' hb'
  exact ⟨N, w', r, hstep, hopt, ⟨hbest, hz1⟩, d, hdu, hd⟩

end Verif.MPC
