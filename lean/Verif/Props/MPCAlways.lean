import Verif.Spec.MPCAlways
import Verif.Proofs.MPCFuel
import Verif.Proofs.MeshFnSlope
import Verif.Props.MPCSolver
import Verif.Props.MPCWeights
import Verif.Props.QPAlways
import Verif.Props.QPDuality

/-! # The controller returns without any limit, and what it approximates is unique (C110) -/

set_option linter.unusedSectionVars false

namespace Verif.MPC

open Verif.Mesh Verif.Sparse Verif.MeshFn Verif.NLP Verif.OQP Verif.QPSpec Verif.Lie Verif.Flatten
open Verif.QP (Ext Status UpperOnly SqrtPos LdltOk)
open scoped Matrix

variable {T σ X U : Type*} {nx nu ncr n m N : ℕ} {env : (n : ℕ) → QP.Env ℝ n} {prm : QP.Params ℝ} {fuel : ℕ}

/-- Assumptions on the solver's surroundings and parameters. -/
structure Solves (env : (n : ℕ) → QP.Env ℝ n) (prm : QP.Params ℝ) : Prop where
  upper : ∀ n, UpperOnly (env n)
  sqrt : ∀ n, SqrtPos (env n)
  ldlt : ∀ n, LdltOk (env n)
  finds : ∀ n m (p : QP.Pbm ℝ n m), Lin.PSD p.P → ∀ s : QP.Scaling ℝ n m, s.Pos → (env n).factor m (QP.kkt prm.sigma p s (QP.rhoVec prm p s)) ≠ none
  alpha : 0 < prm.alpha ∧ prm.alpha < 2
  sigma : 0 < prm.sigma
  rho : 0 < prm.rho
  epsAbs : 0 < prm.epsAbs
  epsRel : 0 ≤ prm.epsRel
  epsPrimalInf : 0 < prm.epsPrimalInf
  epsDualInf : 0 < prm.epsDualInf
  check : 2 ≤ prm.stopCheckIter

/-- The codes of a solve without limits. -/
def Verdict (c : Status) : Prop := c = .optimal ∨ c = .primalInfeasible ∨ c = .dualInfeasible

theorem code_verdict {prm : QP.Params ℝ} {E : QP.Env ℝ n} (hsq : SqrtPos E) {p : QP.Pbm ℝ n m} {ws : Option ((Fin n → ℝ) × (Fin m → ℝ))} {sol : QP.Sol ℝ n m}
    (hed : 0 ≤ prm.epsDualInf) (hf : ∀ s : QP.Scaling ℝ n m, s.Pos → E.factor m (QP.kkt prm.sigma p s (QP.rhoVec prm p s)) ≠ none)
    (hmi : prm.maxIter = none) (hmt : prm.maxTime = none) (h : QP.solveQP E prm p ws fuel = .ok sol) : Verdict sol.code := by
  obtain ⟨s, hs, -, hc⟩ := QP.qp_exit_code_meaning hed h
  cases hcode : sol.code with
  | optimal => exact Or.inl rfl
  | primalInfeasible => exact Or.inr (Or.inl rfl)
  | dualInfeasible => exact Or.inr (Or.inr rfl)
  | unknown => rw [hcode] at hc; exact absurd hc.2 (hf s (QP.chosenScaling_pos hsq hs))
  | polishFailed => rw [hcode] at hc; exact hc.elim
  | maxIterations =>
    rw [hcode] at hc
    have : prm.maxIter = some sol.iter := hc
    rw [hmi] at this
    cases this
  | maxTime =>
    rw [hcode] at hc
    obtain ⟨_, b, -, -, hb, -⟩ := hc
    rw [hmt] at hb
    cases hb

/-- One call returns, with the same result for all fuel that is enough. -/
theorem call_always (hS : Solves env prm) (hnx : prm.scaling = true → 1 ≤ nx) (sys : Sys T ℝ σ X U nx nu) (w : World T ℝ (QState ℝ) X U nx nu ncr)
    (hinv : ∀ fuel, WInv prm (sys.real env prm fuel) w) (i : ℕ) (hi : i < w.objs.length) (hM : ∀ o, w.objs[i]? = some o → Makeable sys.env o.args) (t : T) (x : X) :
    ∃ N w' r, (∀ fuel, N ≤ fuel → w.step (sys.real env prm fuel) (.call i t x) = some (w', some r)) ∧
      (prm.maxIter = none → prm.maxTime = none → Verdict r.code) := by
  have hget := List.getElem?_eq_getElem hi
  set o := w.objs[i] with hO
  obtain ⟨hok, hx, hu⟩ := (hinv 0).ok i o hget
  obtain ⟨g1, g2, g3⟩ := (hinv 0).sat i o hget
  have hxc := List.getElem?_eq_getElem hx
  have huc := List.getElem?_eq_getElem hu
  set xc := w.xs[o.xp]
  set uc := w.us[o.up]
  obtain ⟨o2, e2, he, hok', -⟩ := transcribe_spec (sys.real env prm 0) o hok xc.xdes xc.dxdes uc.udes t x
  obtain ⟨hsp, -⟩ := transcribe_sparsity (sys.real env prm 0) o o2 hok g1 _ _ t x rfl rfl e2
  have h1 : o2.solver = o.solver := by rw [he]
  have h2 : o2.warm = o.warm := by rw [he]
  have h3 : o2.args = o.args := by rw [he]
  have hr2 : Ready prm o2.qp o2.solver := by rw [h1]; exact g2.congr hsp
  have hz : sized o2.qp o2.warm o2.qp.A.cols o2.qp.A.rows = true := by
    have hi := hok'.inv
    simp only [sized, Bool.and_eq_true, decide_eq_true_eq]
    refine ⟨⟨hi.P.1.trans hi.con.A.2.symm, hi.P.2.trans hi.con.A.2.symm, hi.q.trans hi.con.A.2.symm, trivial, trivial, hi.con.l.trans hi.con.A.1.symm, hi.con.u.trans hi.con.A.1.symm⟩, ?_⟩
    rw [h2]
    cases hwm : o.warm with
    | none => rfl
    | some q =>
      rw [Option.all_some, decide_eq_true_eq, hsp.A.cols, hsp.A.rows]
      exact g3 q hwm
  have hdim : prm.scaling = true → o2.qp.A.cols ≠ 0 ∧ o2.qp.A.rows ≠ 0 := by
    intro hsca
    have := hnx hsca
    rw [hok'.inv.con.A.1, hok'.inv.con.A.2]
    unfold numV numC
    constructor
    · have : 0 < nx * (nColloc o2.mesh + 1) := by positivity
      omega
    · omega
  have hpsd : Lin.PSD (pbmOf o2.qp o2.qp.A.cols o2.qp.A.rows).P := by
    have hM' := hM o hget
    have := program_psd (m := o2.qp.A.rows) hok' (by rw [h3]; exact hM'.horizon) (by rw [h3]; exact hM'.rule)
    rw [← hok'.inv.con.A.2] at this
    exact this
  have hq : (pbmOf o2.qp o2.qp.A.cols o2.qp.A.rows).q = 0 := by
    funext j
    have hj : (j : ℕ) < numV (nColloc o2.mesh) nx nu := lt_of_lt_of_eq j.2 hok'.inv.con.A.2
    obtain ⟨v, hv⟩ := QVar.pos_surj hj
    change o2.qp.q.val j = 0
    rw [← hv]
    exact hok'.q v
  obtain ⟨N, hN⟩ := QP.qp_always_returns_partial (env := env o2.qp.A.cols) (prm := prm) (p := pbmOf o2.qp o2.qp.A.cols o2.qp.A.rows)
    (ws := warmOf o2.warm o2.qp.A.cols o2.qp.A.rows) (hS.sqrt _) (hS.ldlt _) hpsd hS.alpha.1 hS.alpha.2 hS.sigma hS.rho hS.epsAbs hS.epsRel hS.epsPrimalInf
    hS.epsDualInf hS.check hdim (hS.finds _ _ _ hpsd) (fun d hd => by
      have := hd.2.1
      rw [hq, zero_dotProduct] at this
      exact absurd this (lt_irrefl _))
  obtain ⟨sol, hsol⟩ := hN N le_rfl
  have hk := (solve_sim (env := env) (prm := prm) (fuel := N) hS.upper hr2 o2.warm).1
  have hf : (qpFresh env prm N).solve o2.qp o2.warm () = some (solOf sol, ()) := by
    simp only [qpFresh]
    rw [if_pos hz, hsol]
  rw [hf] at hk
  obtain ⟨r, hr, hrr⟩ := Option.map_eq_some_iff.mp hk.symm
  obtain ⟨w', out, hw'⟩ := call_defined (sys.real env prm N) w (hinv N).ok i hi t x fun o' xc' uc' o'' a1 a2 a3 a4 => by
    rw [hget] at a1
    obtain rfl := Option.some.inj a1
    rw [hxc] at a2
    obtain rfl := Option.some.inj a2
    rw [huc] at a3
    obtain rfl := Option.some.inj a3
    obtain rfl : o2 = o'' := Option.some.inj (e2.symm.trans a4)
    refine ⟨r, hr, ?_⟩
    rw [(solve_size hr).1, hr2.n, hok'.inv.con.A.2, hok'.inv.q]
  refine ⟨N, w', out, fun fuel hfuel => step_fuel sys hfuel w _ hw', fun hmi hmt => ?_⟩
  obtain ⟨o1, qp, s, st, b1, b2, b3, b4, b5, b6, b7, b8, r', hr', hcode, -⟩ := step_call (sys.real env prm N) w (hinv N).ok i o.args xc.xdes xc.dxdes uc.udes
    ⟨o, xc, uc, hget, rfl, hxc, huc, rfl, rfl, rfl⟩ t x w' _ hw'
  obtain rfl := Option.some.inj hr'
  rw [hget] at b1
  obtain rfl := Option.some.inj b1
  have hp : w.program (sys.real env prm N) i t x = some o2.qp := by
    unfold World.program
    rw [hget, Option.bind_some, hxc, Option.bind_some, huc, Option.bind_some]
    have e' : o.transcribe (sys.real env prm N) { xc with t0 := t } { uc with t0 := t } t x = some o2 := e2
    rw [e', Option.map_some]
  rw [hp] at b4
  obtain rfl := Option.some.inj b4
  have hwm : w.warm i = o2.warm := by
    unfold World.warm
    rw [hget, h2]
    rfl
  rw [hwm, ← h1] at b6
  have b6' : (qpObject env prm N).solve o2.qp o2.warm o2.solver = some (s, st) := b6
  rw [hr] at b6'
  have hs : s = solOf sol := by
    have := congrArg Prod.fst hrr
    rw [Option.some.inj b6'] at this
    exact this
  rw [hcode, hs]
  exact code_verdict (hS.sqrt _) hS.epsDualInf.le (hS.finds _ _ _ hpsd) hmi hmt hsol

/-- The invariant that a history keeps. -/
structure Alive (env : (n : ℕ) → QP.Env ℝ n) (prm : QP.Params ℝ) (sys : Sys T ℝ σ X U nx nu) (k : ℕ) (w : World T ℝ (QState ℝ) X U nx nu ncr) : Prop where
  inv : ∀ fuel, WInv prm (sys.real env prm fuel) w
  made : ∀ (i : ℕ) o, w.objs[i]? = some o → Makeable sys.env o.args
  count : w.objs.length = k

/-- The number of controllers after an operation. -/
def Op.after (k : ℕ) : Op T ℝ X U nx nu ncr → ℕ
  | .new _ => k + 1
  | .copy _ => k + 1
  | _ => k

theorem legal_cons {e : Mesh.Env ℝ} {k : ℕ} {op : Op T ℝ X U nx nu ncr} {l : List (Op T ℝ X U nx nu ncr)} :
    Legal e k (op :: l) ↔ Legal e k [op] ∧ Legal e (op.after k) l := by
  cases op <;> simp [Legal, Op.after, and_assoc]

theorem step_always (hS : Solves env prm) (hnx : prm.scaling = true → 1 ≤ nx) (sys : Sys T ℝ σ X U nx nu) (k : ℕ) (w : World T ℝ (QState ℝ) X U nx nu ncr)
    (h : Alive env prm sys k w) (op : Op T ℝ X U nx nu ncr) (hl : Legal sys.env k [op]) :
    ∃ N r, (∀ fuel, N ≤ fuel → w.step (sys.real env prm fuel) op = some r) ∧ Alive env prm sys (op.after k) r.1 ∧
      r.2.isSome = op.isCall ∧
      (prm.maxIter = none → prm.maxTime = none → ∀ o, r.2 = some o → Verdict o.code) := by
  have key : ∀ N r, w.step (sys.real env prm N) op = some r → ∀ fuel, WInv prm (sys.real env prm fuel) r.1 := fun N r hr fuel =>
    wInv_fuel ((step_sim (sys := sys.real env prm N) rfl hS.upper w (h.inv N) op).2 r hr)
  have get : ∀ {i}, i < k → ∃ o, w.objs[i]? = some o := fun {i} hi => ⟨_, List.getElem?_eq_getElem (by rw [h.count]; exact hi)⟩
  cases op with
  | new a =>
    obtain ⟨hm, -⟩ := hl
    have hn := (new_sim (sys := sys.real env prm 0) (env := env) (prm := prm) (fuel := 0) rfl a w.xs.length w.us.length).1
    obtain ⟨o, ho⟩ := new_def ((sys.real env prm 0).withSolver (qpFresh env prm 0)) a hm.kmesh hm.size (fun qp s => by simp [Sys.withSolver, qpFresh]) w.xs.length w.us.length
    rw [hn] at ho
    obtain ⟨o', ho', -⟩ := Option.map_eq_some_iff.mp ho
    have hst : w.step (sys.real env prm 0) (.new a) = some (⟨w.xs ++ [newX (sys.real env prm 0)], w.us ++ [newU (sys.real env prm 0)], w.objs ++ [o']⟩, none) := by
      simp only [World.step]
      rw [ho']
      rfl
    refine ⟨0, _, fun fuel hf => step_fuel sys hf w _ hst, ⟨key _ _ hst, fun i p hp => ?_, ?_⟩, rfl, fun _ _ o h => by cases h⟩
    · rcases getElem?_snoc_some hp with ⟨-, rfl⟩ | ⟨-, hp⟩
      · rw [(new_ok _ _ _ _ _ ho').2.1]; exact hm
      · exact h.made i p hp
    · simp [Op.after, h.count]
  | copy i =>
    obtain ⟨o, ho⟩ := get hl.1
    have hst : w.step (sys.real env prm 0) (.copy i) = some ({ w with objs := w.objs ++ [o.copy (sys.real env prm 0)] }, none) := by
      simp only [World.step]
      rw [ho]
      rfl
    refine ⟨0, _, fun fuel hf => step_fuel sys hf w _ hst, ⟨key _ _ hst, fun j p hp => ?_, ?_⟩, rfl, fun _ _ o h => by cases h⟩
    · rcases getElem?_snoc_some hp with ⟨-, rfl⟩ | ⟨-, hp⟩
      · exact h.made i o ho
      · exact h.made j p hp
    · simp [Op.after, h.count]
  | assign i j =>
    obtain ⟨o, ho⟩ := get hl.1
    obtain ⟨o', ho'⟩ := get hl.2.1
    have hst : w.step (sys.real env prm 0) (.assign i j) = some ({ w with objs := w.objs.set i (o'.copy (sys.real env prm 0)) }, none) := by
      simp only [World.step]
      rw [ho, ho']
      rfl
    refine ⟨0, _, fun fuel hf => step_fuel sys hf w _ hst, ⟨key _ _ hst, fun l p hp => ?_, ?_⟩, rfl, fun _ _ o h => by cases h⟩
    · rcases getElem?_set_some hp with ⟨-, rfl⟩ | ⟨-, hp⟩
      · exact h.made j o' ho'
      · exact h.made l p hp
    · simp [Op.after, h.count]
  | call i t x =>
    obtain ⟨o, ho⟩ := get hl.1
    obtain ⟨N, w', r, h1, h2⟩ := call_always hS hnx sys w h.inv i (by rw [h.count]; exact hl.1) (h.made i) t x
    have hst := h1 N le_rfl
    have objs : ∀ w' r, w.step (sys.real env prm N) (.call i t x) = some (w', r) → ∃ q, w'.objs = w.objs.set i q ∧ q.args = o.args := by
      intro w' r hst
      simp only [World.step] at hst
      rw [ho, Option.bind_some] at hst
      obtain ⟨xc, hxc, hst⟩ := Option.bind_eq_some_iff.mp hst
      obtain ⟨uc, huc, hst⟩ := Option.bind_eq_some_iff.mp hst
      obtain ⟨q, hq, e⟩ := Option.map_eq_some_iff.mp hst
      obtain ⟨o1, s, -, -, ha, -, -, -, -, -, -, -, -, b, -⟩ := call_spec (sys.real env prm N) o ((h.inv N).ok i o ho).1 xc uc t x q hq
      refine ⟨q.2.2.1, ?_, by rw [b]; exact ha⟩
      have e' : _ = w' := congrArg Prod.fst e
      rw [← e']
    refine ⟨N, _, h1, ⟨key _ _ hst, fun l p hp => ?_, ?_⟩, rfl, fun a b o h => by
      obtain rfl := Option.some.inj h
      exact h2 a b⟩
    · rcases objs w' _ hst with ⟨q, hq, ha⟩
      rw [hq] at hp
      rcases getElem?_set_some hp with ⟨-, rfl⟩ | ⟨-, hp⟩
      · rw [ha]; exact h.made i o ho
      · exact h.made l p hp
    · rcases objs w' _ hst with ⟨q, hq, -⟩
      rw [hq, List.length_set]; exact h.count
  | setX i xd dxd =>
    obtain ⟨o, ho⟩ := get hl.1
    have hx := List.getElem?_eq_getElem ((h.inv 0).ok i o ho).2.1
    have hst : ∃ r, w.step (sys.real env prm 0) (.setX i xd dxd) = some r ∧ r.1.objs = w.objs ∧ r.2 = none := by
      simp only [World.step]
      rw [ho, Option.bind_some, hx]
      exact ⟨_, rfl, rfl, rfl⟩
    obtain ⟨r, hst, hr, hn⟩ := hst
    refine ⟨0, r, fun fuel hf => step_fuel sys hf w _ hst, ⟨key _ _ hst, fun l p hp => ?_, ?_⟩, by rw [hn]; rfl, fun _ _ o h => by rw [hn] at h; cases h⟩
    · rw [hr] at hp; exact h.made l p hp
    · rw [hr]; exact h.count
  | setU i ud =>
    obtain ⟨o, ho⟩ := get hl.1
    have hx := List.getElem?_eq_getElem ((h.inv 0).ok i o ho).2.2
    have hst : ∃ r, w.step (sys.real env prm 0) (.setU i ud) = some r ∧ r.1.objs = w.objs ∧ r.2 = none := by
      simp only [World.step]
      rw [ho, Option.bind_some, hx]
      exact ⟨_, rfl, rfl, rfl⟩
    obtain ⟨r, hst, hr, hn⟩ := hst
    refine ⟨0, r, fun fuel hf => step_fuel sys hf w _ hst, ⟨key _ _ hst, fun l p hp => ?_, ?_⟩, by rw [hn]; rfl, fun _ _ o h => by rw [hn] at h; cases h⟩
    · rw [hr] at hp; exact h.made l p hp
    · rw [hr]; exact h.count
  | setW i Q Qtf R =>
    obtain ⟨o, ho⟩ := get hl.1
    have hst : w.step (sys.real env prm 0) (.setW i Q Qtf R) = some ({ w with objs := w.objs.set i (o.setWeights Q Qtf R) }, none) := by
      simp only [World.step]
      rw [ho]
      rfl
    refine ⟨0, _, fun fuel hf => step_fuel sys hf w _ hst, ⟨key _ _ hst, fun l p hp => ?_, ?_⟩, rfl, fun _ _ o h => by cases h⟩
    · rcases getElem?_set_some hp with ⟨-, rfl⟩ | ⟨-, hp⟩
      · exact h.made i o ho
      · exact h.made l p hp
    · simp [Op.after, h.count]
  | reset i =>
    obtain ⟨o, ho⟩ := get hl.1
    have hst : w.step (sys.real env prm 0) (.reset i) = some ({ w with objs := w.objs.set i o.reset }, none) := by
      simp only [World.step]
      rw [ho]
      rfl
    refine ⟨0, _, fun fuel hf => step_fuel sys hf w _ hst, ⟨key _ _ hst, fun l p hp => ?_, ?_⟩, rfl, fun _ _ o h => by cases h⟩
    · rcases getElem?_set_some hp with ⟨-, rfl⟩ | ⟨-, hp⟩
      · exact h.made i o ho
      · exact h.made l p hp
    · simp [Op.after, h.count]

theorem history_always (hS : Solves env prm) (hnx : prm.scaling = true → 1 ≤ nx) (sys : Sys T ℝ σ X U nx nu) (l : List (Op T ℝ X U nx nu ncr)) (k : ℕ)
    (w : World T ℝ (QState ℝ) X U nx nu ncr) (h : Alive env prm sys k w) (hl : Legal sys.env k l) :
    ∃ N w', ∃ os : List (Option (Out X U)), (∀ fuel, N ≤ fuel → World.run (sys.real env prm fuel) l w = some w' ∧ outs (sys.real env prm fuel) l w = os.map some) ∧
      os.map Option.isSome = l.map Op.isCall ∧ (prm.maxIter = none → prm.maxTime = none → ∀ o, some o ∈ os → Verdict o.code) := by
  induction l generalizing k w with
  | nil => exact ⟨0, w, [], fun _ _ => ⟨rfl, rfl⟩, rfl, fun _ _ o ho => by cases ho⟩
  | cons op l ih =>
    obtain ⟨h1, h2⟩ := legal_cons.1 hl
    obtain ⟨N, r, hr, ha, hc, hv⟩ := step_always hS hnx sys k w h op h1
    obtain ⟨M, w', os, hos, hcs, hvs⟩ := ih (op.after k) r.1 ha h2
    refine ⟨max N M, w', r.2 :: os, fun fuel hf => ?_, ?_, fun a b o ho => ?_⟩
    · have e1 := hr fuel (le_trans (le_max_left _ _) hf)
      obtain ⟨e2, e3⟩ := hos fuel (le_trans (le_max_right _ _) hf)
      simp only [World.run, outs, e1, Option.bind_some, e2, e3, List.map_cons, and_self]
    · rw [List.map_cons, List.map_cons, hc, hcs]
    · rcases List.mem_cons.1 ho with h | h
      · exact hv a b o h.symm
      · exact hvs a b o h

/-- **C110, returning.** No limit on iterations or time is needed: in every history of constructions, copies, assignments, calls, changes of the
desired trajectories and weights and resets every operation returns, for every system, all bounds, desired trajectories, states and times, feasible or
not. The results do not depend on the fuel of the model once it suffices. Without limits every call reports Optimal, PrimalInfeasible or DualInfeasible. -/
theorem mpc_always_returns (hS : Solves env prm) (hnx : prm.scaling = true → 1 ≤ nx) (sys : Sys T ℝ σ X U nx nu) (l : List (Op T ℝ X U nx nu ncr))
    (hl : Legal sys.env 0 l) :
    ∃ (N : ℕ) (os : List (Option (Out X U))), (∀ fuel, N ≤ fuel → outs (sys.withSolver (qpObject env prm fuel)) l World.empty = os.map some) ∧
      os.map Option.isSome = l.map Op.isCall ∧ (prm.maxIter = none → prm.maxTime = none → ∀ o, some o ∈ os → Verdict o.code) := by
  obtain ⟨N, _, os, h1, h2, h3⟩ := history_always hS hnx sys l 0 World.empty ⟨fun _ => empty_inv, fun i o h => by simp [World.empty] at h, rfl⟩ hl
  exact ⟨N, os, fun fuel hf => (h1 fuel hf).2, h2, h3⟩

/-! ## What is approximated -/

/-- The state at the end of the last interval enters the slopes there. -/
theorem slope_last {e : Mesh.Env ℝ} (hB : IsLagrange e) {b : ℝ} {m : Mesh ℝ} (hne : m ≠ []) (hi : (m.map Ival.tau0).Pairwise (· < ·))
    (hb : ∀ v ∈ m, v.tau0 < b) (hL : ∀ v ∈ m, 1 ≤ v.K ∧ IsLGR e v.K) (X : ℕ → ℝ) (hX : ∀ j, j < points m → X j = 0)
    (hs : ∀ j, j < points m → slope e (spans b m) X j = 0) : X (points m) = 0 := by
  induction m generalizing X with
  | nil => exact absurd rfl hne
  | cons v m ih =>
    have hsp : spans b (v :: m) = (v, headOr b m) :: spans b m := by cases m <;> simp [spans, headOr]
    have hpts : points (v :: m) = v.K + points m := by simp [points]
    obtain ⟨hK, hv⟩ := hL v (by simp)
    by_cases hm : m = []
    · subst hm
      have h0 := hs 0 (by rw [hpts]; omega)
      have hp0 : points ([] : Mesh ℝ) = 0 := rfl
      rw [hsp, MeshFn.slope, dif_pos (by omega : 0 < v.K), Fin.sum_univ_castSucc, Finset.sum_eq_zero, zero_add] at h0
      · have hbb : v.tau0 < b := hb v (by simp)
        have hd := diffmat_poly hv hB hbb (∏ j : Fin v.K, (Polynomial.X - Polynomial.C (toMesh v.tau0 b (e.node v.K j))))
          (by rw [Polynomial.natDegree_prod_of_monic _ _ fun j _ => Polynomial.monic_X_sub_C _]; simp) ⟨0, hK⟩
        rw [hpts, hp0, add_zero]
        rcases mul_eq_zero.1 h0 with h | h
        · exfalso
          rw [Matrix.vecMul, dotProduct, Fin.sum_univ_castSucc, Finset.sum_eq_zero, zero_add] at hd
          · have hh : headOr b ([] : Mesh ℝ) = b := rfl
            rw [hh] at h
            rw [h, mul_zero] at hd
            have hinj : ∀ i j : Fin v.K, i ≠ j → toMesh v.tau0 b (e.node v.K i) ≠ toMesh v.tau0 b (e.node v.K j) := by
              intro i j hij
              have hne : e.node v.K i ≠ e.node v.K j := by
                rcases lt_or_gt_of_ne (fun h => hij (Fin.ext h) : (i : ℕ) ≠ j) with h | h
                · exact (hv.increasing i j h j.2).ne
                · exact (hv.increasing j i h i.2).ne'
              intro h
              unfold toMesh at h
              apply hne
              have : (b - v.tau0) ≠ 0 := by linarith
              field_simp at h
              nlinarith
            rw [Polynomial.derivative_prod_finset, Polynomial.eval_finset_sum, Finset.sum_eq_single ⟨0, hK⟩] at hd
            · rw [Polynomial.eval_mul, Polynomial.eval_prod] at hd
              simp only [Polynomial.derivative_sub, Polynomial.derivative_X, Polynomial.derivative_C, sub_zero, Polynomial.eval_one, mul_one, Polynomial.eval_sub,
                Polynomial.eval_X, Polynomial.eval_C] at hd
              refine (Finset.prod_ne_zero_iff.2 fun j hj => ?_) hd.symm
              exact sub_ne_zero.2 (hinj _ _ (Finset.mem_erase.1 hj).1.symm)
            · intro j _ hj
              rw [Polynomial.eval_mul, Polynomial.eval_prod, Finset.prod_eq_zero (i := (⟨0, hK⟩ : Fin v.K)) (Finset.mem_erase.2 ⟨hj.symm, Finset.mem_univ _⟩), zero_mul]
              simp
            · intro h; exact absurd (Finset.mem_univ _) h
          · intro j _
            rw [Polynomial.eval_prod, Finset.prod_eq_zero (i := j) (Finset.mem_univ _), zero_mul]
            simp [nodeExt]
        · exact h
      · intro j _
        rw [show X (j.castSucc : Fin (v.K + 1)) = 0 from hX j (by rw [hpts]; have := j.2; omega), mul_zero]
    · have hi' : (m.map Ival.tau0).Pairwise (· < ·) := by
        rw [List.map_cons, List.pairwise_cons] at hi; exact hi.2
      have := ih hm hi' (fun w hw => hb w (List.mem_cons_of_mem _ hw)) (fun w hw => hL w (List.mem_cons_of_mem _ hw)) (fun j => X (v.K + j))
        (fun j hj => hX _ (by rw [hpts]; omega)) (fun j hj => by
          have := hs (v.K + j) (by rw [hpts]; omega)
          rw [hsp, MeshFn.slope, dif_neg (by omega), Nat.add_sub_cancel_left] at this
          exact this)
      rw [hpts]
      exact this

/-- Parallelogram law of the cost. -/
theorem unitCost_mid (e : Mesh.Env ℝ) (m : Mesh ℝ) (tf : ℝ) (z z' : QVar (nColloc m) nx nu → ℝ) :
    unitCost e m tf (fun v => (z v + z' v) / 2) = (unitCost e m tf z + unitCost e m tf z') / 2 - unitCost e m tf (fun v => z v - z' v) / 4 := by
  have key : ∀ {ι : Type} [Fintype ι] (a b : ι → ℝ), ∑ k, ((a k + b k) / 2) ^ 2 = (∑ k, a k ^ 2 + ∑ k, b k ^ 2) / 2 - (∑ k, (a k - b k) ^ 2) / 4 := by
    intro ι _ a b
    rw [← Finset.sum_add_distrib, Finset.sum_div, Finset.sum_div, ← Finset.sum_sub_distrib]
    exact Finset.sum_congr rfl fun k _ => by ring
  unfold unitCost dxAt duAt
  simp only [key]
  have : ∑ i : Fin (nColloc m), wAt e m i * ((∑ k, z (.x i.castSucc k) ^ 2 + ∑ k, z' (.x i.castSucc k) ^ 2) / 2 - (∑ k, (z (.x i.castSucc k) - z' (.x i.castSucc k)) ^ 2) / 4 +
      ((∑ k, z (.u i k) ^ 2 + ∑ k, z' (.u i k) ^ 2) / 2 - (∑ k, (z (.u i k) - z' (.u i k)) ^ 2) / 4)) =
      (∑ i : Fin (nColloc m), wAt e m i * (∑ k, z (.x i.castSucc k) ^ 2 + ∑ k, z (.u i k) ^ 2) +
        ∑ i : Fin (nColloc m), wAt e m i * (∑ k, z' (.x i.castSucc k) ^ 2 + ∑ k, z' (.u i k) ^ 2)) / 2 -
      (∑ i : Fin (nColloc m), wAt e m i * (∑ k, (z (.x i.castSucc k) - z' (.x i.castSucc k)) ^ 2 + ∑ k, (z (.u i k) - z' (.u i k)) ^ 2)) / 4 := by
    rw [← Finset.sum_add_distrib, Finset.sum_div, Finset.sum_div, ← Finset.sum_sub_distrib]
    exact Finset.sum_congr rfl fun i _ => by ring
  rw [this]
  ring

variable {𝔸 𝔹 : Type*} [NormedRing 𝔸] [NormedAlgebra ℝ 𝔸] [FiniteDimensional ℝ 𝔸] [CompleteSpace 𝔸] [NormedRing 𝔹] [NormedAlgebra ℝ 𝔹]
  [FiniteDimensional ℝ 𝔹] [CompleteSpace 𝔹] {mat : X → 𝔸} {hat : (Fin nx → ℝ) →ₗ[ℝ] 𝔸} {matU : U → 𝔹} {hatU : (Fin nu → ℝ) →ₗ[ℝ] 𝔹}

/-- **C110, what is approximated.** After any history, with a positive horizon: no deviations satisfy the linearised dynamics from the current state and the
running constraints, or among those that do exactly one has the least cost, although the cost does not contain the last state. -/
theorem mpc_unique (sys : Sys T ℝ σ X U nx nu) (l : List (Op T ℝ X U nx nu ncr)) (w : World T ℝ σ X U nx nu ncr) (hw : World.run sys l World.empty = some w)
    (i : ℕ) (a : Args T ℝ X U nx nu ncr) (hG : sys.IsLie mat hat matU hatU) (hf : IsUFn sys a.f) (hcr : IsUFn sys a.cr)
    (hL : ∀ K, a.Kmesh ≤ K → K ≤ a.Kmesh + 1 → IsLGR sys.env K) (hB : IsLagrange sys.env) (htf : 0 < a.tf) (xd : T → X) (dxd : T → Fin nx → ℝ) (ud : T → U)
    (hF : w.Follows i a xd dxd ud) (t : T) (x : X) :
    (∀ z, ¬ Admissible sys a xd dxd ud t x z) ∨
    ∃! z, Admissible sys a xd dxd ud t x z ∧ ∀ z', Admissible sys a xd dxd ud t x z' → unitCost sys.env (meshOf a) a.tf z ≤ unitCost sys.env (meshOf a) a.tf z' := by
  have hok := run_ok sys l _ w (empty_ok sys) hw
  obtain ⟨o, o2, e1, ho, ha, hm, e2, hp⟩ := program_of_follows sys w hok i a xd dxd ud hF t x
  obtain ⟨qp, hp', hsz, hprog⟩ := mpc_program sys l w hw i a hG hf hcr xd dxd ud hF t x
  rw [hp] at hp'
  obtain rfl := Option.some.inj hp'
  obtain ⟨o2', e3, he, hok2, -⟩ := transcribe_spec sys o ho xd dxd ud t x
  obtain rfl := Option.some.inj (e3.symm.trans e2)
  have hm2 : o2'.mesh = meshOf a := by rw [he]; exact hm
  have ha2 : o2'.args = a := by rw [he]; exact ha
  set p := toPbm o2'.qp (numV (nColloc (meshOf a)) nx nu) (numC (nColloc (meshOf a)) nx ncr nx) with hpdef
  have hpsd : Lin.PSD p.P := by
    have := program_psd (m := numC (nColloc (meshOf a)) nx ncr nx) hok2 (by rw [ha2]; exact htf.le) (by rw [ha2]; exact hL)
    rw [pbmOf_eq hok2, hm2] at this
    exact this
  have hq : p.q = 0 := by
    funext j
    have hj : (j : ℕ) < numV (nColloc o2'.mesh) nx nu := lt_of_lt_of_eq j.2 (by rw [hm2])
    obtain ⟨v, hv⟩ := QVar.pos_surj hj
    change o2'.qp.q.val j = 0
    rw [← hv]
    exact hok2.q v
  have hval : Valid a.Kmesh a.Kmesh (meshOf a) := by
    have := hok2.valid
    rwa [hm2, ha2] at this
  have hk1 : 1 ≤ a.Kmesh := by
    have := hok2.kmesh
    rwa [ha2] at this
  obtain ⟨hl1, hl2, -⟩ := qp_layout (nColloc (meshOf a)) nx nu ncr nx
  by_cases hex : ∃ z, Admissible sys a xd dxd ud t x z
  swap
  · exact Or.inl fun z hz => hex ⟨z, hz⟩
  right
  obtain ⟨z0, hz0⟩ := hex
  obtain ⟨v0, hv0, -⟩ := hl1 z0
  obtain ⟨v, hv⟩ := QP.minimiser_exists hpsd ((hprog z0 v0 hv0).1.2 hz0) (by
    rintro ⟨d, hd⟩
    have := hd.2.1
    rw [hq, zero_dotProduct] at this
    exact lt_irrefl _ this)
  obtain ⟨z, hz, -⟩ := hl2 v
  have hzA : Admissible sys a xd dxd ud t x z := (hprog z v hz).1.1 hv.1
  have hzmin : ∀ z', Admissible sys a xd dxd ud t x z' → unitCost sys.env (meshOf a) a.tf z ≤ unitCost sys.env (meshOf a) a.tf z' := by
    intro z' hz'
    obtain ⟨v', hv', -⟩ := hl1 z'
    rw [← (hprog z v hz).2, ← (hprog z' v' hv').2]
    exact hv.2 v' ((hprog z' v' hv').1.2 hz')
  refine ⟨z, ⟨hzA, hzmin⟩, fun z' ⟨hA', hmin'⟩ => ?_⟩
  obtain ⟨v', hv', -⟩ := hl1 z'
  have hmid : IsPrimal (fun q => (z q + z' q) / 2) (v + (1 / 2 : ℝ) • (v' - v)) := fun q hq' => by
    show v _ + 1 / 2 * (v' _ - v _) = (z q + z' q) / 2
    rw [hz q hq', hv' q hq']
    ring
  have hmA := (hprog _ _ hmid).1.1 (QP.feasible_segment hv.1 ((hprog z' v' hv').1.2 hA') (by norm_num) (by norm_num))
  have hc := hzmin _ hmA
  rw [unitCost_mid] at hc
  have hc' := hmin' z hzA
  have hle : unitCost sys.env (meshOf a) a.tf (fun q => z q - z' q) ≤ 0 := by linarith
  have hwt := fun i : Fin (nColloc (meshOf a)) => wAt_pos sys.env hval hL i
  have hnn : ∀ i : Fin (nColloc (meshOf a)), 0 ≤ wAt sys.env (meshOf a) i * (∑ k, dxAt (fun q => z q - z' q) i k ^ 2 + ∑ k, duAt (fun q => z q - z' q) i k ^ 2) :=
    fun i => mul_nonneg (hwt i).le (add_nonneg (Finset.sum_nonneg fun _ _ => sq_nonneg _) (Finset.sum_nonneg fun _ _ => sq_nonneg _))
  have hsum : ∑ i : Fin (nColloc (meshOf a)), wAt sys.env (meshOf a) i * (∑ k, dxAt (fun q => z q - z' q) i k ^ 2 + ∑ k, duAt (fun q => z q - z' q) i k ^ 2) = 0 := by
    unfold unitCost at hle
    have h0 : 0 ≤ 1 / 4 * ∑ k, (z (.x 0 k) - z' (.x 0 k)) ^ 2 := mul_nonneg (by norm_num) (Finset.sum_nonneg fun _ _ => sq_nonneg _)
    have h1 := Finset.sum_nonneg fun i (_ : i ∈ Finset.univ) => hnn i
    nlinarith
  have hzero := (Finset.sum_eq_zero_iff_of_nonneg fun i _ => hnn i).1 hsum
  have hnode : ∀ i : Fin (nColloc (meshOf a)), (∀ k, z (.x i.castSucc k) = z' (.x i.castSucc k)) ∧ ∀ k, z (.u i k) = z' (.u i k) := by
    intro i
    have h1 := (mul_eq_zero.1 (hzero i (Finset.mem_univ _))).resolve_left (hwt i).ne'
    have h2 : 0 ≤ ∑ k, dxAt (fun q => z q - z' q) i k ^ 2 := Finset.sum_nonneg fun _ _ => sq_nonneg _
    have h3 : 0 ≤ ∑ k, duAt (fun q => z q - z' q) i k ^ 2 := Finset.sum_nonneg fun _ _ => sq_nonneg _
    have h4 := (Finset.sum_eq_zero_iff_of_nonneg fun _ _ => sq_nonneg _).1 (by linarith : ∑ k, dxAt (fun q => z q - z' q) i k ^ 2 = 0)
    have h5 := (Finset.sum_eq_zero_iff_of_nonneg fun _ _ => sq_nonneg _).1 (by linarith : ∑ k, duAt (fun q => z q - z' q) i k ^ 2 = 0)
    exact ⟨fun k => sub_eq_zero.1 (pow_eq_zero_iff (two_ne_zero)|>.1 (h4 k (Finset.mem_univ _))), fun k => sub_eq_zero.1 (pow_eq_zero_iff (two_ne_zero)|>.1 (h5 k (Finset.mem_univ _)))⟩
  have hdev : ∀ i : Fin (nColloc (meshOf a)), dev z i = dev z' i := by
    intro i
    funext b
    cases b with
    | t => rfl
    | x k => exact (hnode i).1 k
    | u k => exact (hnode i).2 k
  have hlast : ∀ k, z (.x (Fin.last _) k) = z' (.x (Fin.last _) k) := by
    intro k
    have := slope_last hB hval.ne_nil hval.increasing hval.below (fun v hv => ⟨hk1.trans (hval.degree v hv).1, hL _ (hval.degree v hv).1 (hval.degree v hv).2⟩)
      (fun j => if h : j < nColloc (meshOf a) + 1 then z (.x ⟨j, h⟩ k) - z' (.x ⟨j, h⟩ k) else 0) (fun j hj => by
        rw [← nColloc_eq] at hj
        rw [dif_pos (by omega)]
        exact sub_eq_zero.2 ((hnode ⟨j, hj⟩).1 k)) (fun j hj => by
        rw [← nColloc_eq] at hj
        have h1 := hzA.1.dynamics ⟨j, hj⟩ k
        have h2 := hA'.1.dynamics ⟨j, hj⟩ k
        rw [hdev, ← h2] at h1
        have h3 := slope_sum sys.env (spans 1 (meshOf a)) (fun (c : Bool) j => if h : j < nColloc (meshOf a) + 1 then (if c then z else z') (.x ⟨j, h⟩ k) else 0)
          (fun c => if c then 1 else -1) j
        simp only [Fintype.univ_bool, Finset.mem_singleton, Bool.true_eq_false, not_false_eq_true, Finset.sum_insert, Finset.sum_singleton, if_true, Bool.false_eq_true, if_false] at h3
        have h4 : (fun j' => (if h : j' < nColloc (meshOf a) + 1 then z (.x ⟨j', h⟩ k) - z' (.x ⟨j', h⟩ k) else 0 : ℝ)) =
            fun j' => (if h : j' < nColloc (meshOf a) + 1 then z (.x ⟨j', h⟩ k) else 0) * 1 + (if h : j' < nColloc (meshOf a) + 1 then z' (.x ⟨j', h⟩ k) else 0) * -1 := by
          funext j'
          split_ifs <;> ring
        rw [h4, ← h3, h1]
        ring)
    rw [← nColloc_eq, dif_pos (by omega)] at this
    exact sub_eq_zero.1 this
  funext q
  cases q with
  | x j k =>
    induction j using Fin.lastCases with
    | last => exact (hlast k).symm
    | cast j => exact ((hnode j).1 k).symm
  | u j k => exact ((hnode j).2 k).symm

end Verif.MPC
