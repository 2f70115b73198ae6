import Verif.Model.MPCDouble
import Verif.Proofs.MPCRows
import Verif.Proofs.MeshSlopeBound
import Verif.Props.QPSquare
import Verif.Props.MPCAlways
import Verif.Props.MPCExamples

/-! # The double integrator under predictive control (C120) -/

set_option linter.unusedSectionVars false

namespace Verif.MPC

open Verif.Mesh Verif.Sparse Verif.MeshFn Verif.NLP Verif.OQP Verif.QPSpec Verif.Lie Verif.Flatten
open Verif.QP (Ext Status Determines)
open scoped Matrix

variable {σ : Type*} {env : (n : ℕ) → QP.Env ℝ n} {prm : QP.Params ℝ} {fuel : ℕ}

/-- The system of the example: vectors, times in seconds. -/
noncomputable abbrev diSys (menv : Mesh.Env ℝ) (solver : Solver ℝ σ) : Sys ℝ ℝ σ (Fin 2 → ℝ) (Fin 1 → ℝ) 2 1 :=
  vecSys 2 1 menv (fun t s => t + s) 0 solver

theorem di_f (menv : Mesh.Env ℝ) (solver : Solver ℝ σ) : IsUFn (diSys menv solver) diArgs.f := by
  intro t x u k
  fin_cases k
  · refine ((Flatten.hasPd_const (x 1) (0 : Arg 2 1 → ℝ)).add (Flatten.hasPd_coord (Arg.x 1) 0)).of_eq fun a => ?_
    cases a with
    | t => simp
    | x l => fin_cases l <;> simp [diArgs]
    | u l => fin_cases l; simp [diArgs]
  · refine ((Flatten.hasPd_const (u 0) (0 : Arg 2 1 → ℝ)).add (Flatten.hasPd_coord (Arg.u 0) 0)).of_eq fun a => ?_
    cases a with
    | t => simp
    | x l => fin_cases l <;> simp [diArgs]
    | u l => fin_cases l; simp [diArgs]

theorem di_cr (menv : Mesh.Env ℝ) (solver : Solver ℝ σ) : IsUFn (diSys menv solver) diArgs.cr := by
  intro t x u k
  fin_cases k
  refine ((Flatten.hasPd_const (u 0) (0 : Arg 2 1 → ℝ)).add (Flatten.hasPd_coord (Arg.u 0) 0)).of_eq fun a => ?_
  cases a with
  | t => simp
  | x l => fin_cases l <;> simp [diArgs]
  | u l => fin_cases l; simp [diArgs]

theorem di_fdx (t x u) : (diArgs (F := ℝ)).f.dx t x u = !![0, 1; 0, 0] := rfl
theorem di_fdu (t x u) : (diArgs (F := ℝ)).f.du t x u = !![0; 1] := rfl
theorem di_fval (t x u) : (diArgs (F := ℝ)).f.val t x u = ![x 1, u 0] := rfl
theorem di_tf : (diArgs (F := ℝ)).tf = 5 := rfl

/-- Five intervals with four points each. -/
theorem di_mesh : uniform 4 4 5 4 = some (meshOf (diArgs (F := ℝ))) := by
  unfold meshOf uniform
  simp [diArgs]

theorem di_points : nColloc (meshOf (diArgs (F := ℝ))) = 20 := by
  have : meshOf (diArgs (F := ℝ)) = (List.range 5).map fun i : ℕ => (⟨4, (i : ℝ) * (1 / 5)⟩ : Ival ℝ) := by
    unfold meshOf uniform
    simp [diArgs]
  rw [this]
  rfl

/-- A slope on the whole mesh. -/
theorem di_move {menv : Mesh.Env ℝ} (hL : ∀ K, 4 ≤ K → K ≤ 5 → IsLGR menv K) (hB : IsLagrange menv) (Y : ℕ → ℝ) (S : ℝ)
    (hs : ∀ i : Fin (nColloc (meshOf (diArgs (F := ℝ)))), |MeshFn.slope menv (spans 1 (meshOf (diArgs (F := ℝ)))) Y i| ≤ S) (j : ℕ)
    (hj : j ≤ nColloc (meshOf (diArgs (F := ℝ)))) : |Y j| ≤ |Y 0| + S := by
  have hv := valid_uniform (di_mesh)
  have h0 : headOr (1 : ℝ) (meshOf (diArgs (F := ℝ))) = 0 := by
    have h := hv.starts
    cases hm : meshOf (diArgs (F := ℝ)) with
    | nil => exact absurd hm hv.ne_nil
    | cons v m => rw [hm] at h; simpa [headOr] using h
  have h1 := slope_bound hB hv.ne_nil hv.increasing hv.below (fun v hm => ⟨le_trans (by norm_num) (hv.degree v hm).1, hL _ (hv.degree v hm).1 (hv.degree v hm).2⟩)
    Y S (fun i hi => hs ⟨i, by rw [nColloc_eq]; exact hi⟩) j (by rw [← nColloc_eq]; exact hj)
  rw [h0] at h1
  have h2 := abs_add_le (Y j - Y 0) (Y 0)
  rw [sub_add_cancel] at h2
  linarith

/-- The rows of the program determine its variables within a factor of 37, and every row has two finite bounds in order. -/
theorem di_determines {menv : Mesh.Env ℝ} {solver : Solver ℝ σ} (hL : ∀ K, 4 ≤ K → K ≤ 5 → IsLGR menv K) (hB : IsLagrange menv) {xd dxd : ℝ → Fin 2 → ℝ}
    {ud : ℝ → Fin 1 → ℝ} {t : ℝ} {x : Fin 2 → ℝ} {p : QP.Pbm ℝ (numV (nColloc (meshOf (diArgs (F := ℝ)))) 2 1) (numC (nColloc (meshOf (diArgs (F := ℝ)))) 2 1 2)}
    (h : IsProgram (diSys menv solver) diArgs xd dxd ud t x p) : Determines p.A 37 ∧ ∀ i, ∃ a b, p.l i = .fin a ∧ p.u i = .fin b ∧ a ≤ b := by
  obtain ⟨hl1, hl2, -⟩ := qp_layout (nColloc (meshOf (diArgs (F := ℝ)))) 2 1 1 2
  constructor
  · intro v r hr
    obtain ⟨z, hz, -⟩ := hl2 v
    obtain ⟨h1, h2, h3⟩ := vec_rows (di_f menv solver) (di_cr menv solver) rfl h z v hz
    have hu : ∀ i, |z (.u i 0)| ≤ r := by
      intro i
      obtain ⟨c, -, hc, -⟩ := h2 i 0
      have := hr c
      rw [hc] at this
      simpa [diArgs] using this
    have hx0 : ∀ k, |z (.x 0 k)| ≤ r := by
      intro k
      obtain ⟨c, -, hc, -⟩ := h3 k
      have := hr c
      rwa [hc] at this
    have hco0 : ∀ k, coordQ z k 0 = z (.x 0 k) := fun k => by unfold coordQ; rw [dif_pos (by omega)]; rfl
    have hco : ∀ k (j : Fin (nColloc (meshOf (diArgs (F := ℝ))) + 1)), coordQ z k j = z (.x j k) := fun k j => by unfold coordQ; rw [dif_pos j.2]
    have hv : ∀ j, |z (.x j 1)| ≤ 7 * r := by
      intro j
      have hm := di_move hL hB (coordQ z 1) (6 * r) (fun i => by
        obtain ⟨c, -, hc, -⟩ := h1 i 1
        have h4 := hr c
        rw [hc] at h4
        have h5 := hu i
        simp [di_fdx, di_fdu, di_tf] at h4
        rw [abs_le] at h4 h5 ⊢
        constructor <;> linarith) j (by have := j.2; omega)
      rw [hco, hco0] at hm
      have := hx0 1
      linarith
    have hx : ∀ j, |z (.x j 0)| ≤ 37 * r := by
      intro j
      have hm := di_move hL hB (coordQ z 0) (36 * r) (fun i => by
        obtain ⟨c, -, hc, -⟩ := h1 i 0
        have h4 := hr c
        rw [hc] at h4
        have h5 := hv i.castSucc
        simp [di_fdx, di_fdu, di_tf] at h4
        rw [abs_le] at h4 h5 ⊢
        constructor <;> linarith) j (by have := j.2; omega)
      rw [hco, hco0] at hm
      have := hx0 0
      linarith
    have hr0 : 0 ≤ r := (abs_nonneg _).trans (hx0 0)
    intro j
    obtain ⟨q, hq⟩ := QVar.pos_surj j.2
    have : v j = z q := by
      rw [← hz q (by rw [hq]; exact j.2)]
      congr 1
      exact Fin.ext hq.symm
    rw [this]
    cases q with
    | x j k =>
      fin_cases k
      · exact hx j
      · exact (hv j).trans (by linarith)
    | u j k =>
      fin_cases k
      exact (hu j).trans (by linarith)
  · intro c
    obtain ⟨v, hv, -⟩ := hl1 0
    obtain ⟨h1, h2, h3⟩ := vec_rows (di_f menv solver) (di_cr menv solver) rfl h 0 v hv
    obtain ⟨c', hc'⟩ := QCon.pos_surj c.2
    cases c' with
    | dyn i k =>
      obtain ⟨r, hr, -, e1, e2⟩ := h1 i k
      obtain rfl : r = c := Fin.ext (hr.trans hc')
      exact ⟨_, _, e1, e2.trans e1, le_rfl⟩
    | cr i k =>
      obtain ⟨r, hr, -, e1, e2⟩ := h2 i k
      obtain rfl : r = c := Fin.ext (hr.trans hc')
      refine ⟨_, _, e1, e2, ?_⟩
      norm_num
    | ce k =>
      obtain ⟨r, hr, -, e1, e2⟩ := h3 k
      obtain rfl : r = c := Fin.ext (hr.trans hc')
      exact ⟨_, _, e1, e2.trans e1, le_rfl⟩

/-- What the parameters of the solver must satisfy; those of the example do (`di_params`). -/
structure DiParams (prm : QP.Params ℝ) : Prop where
  maxIter : prm.maxIter = none
  maxTime : prm.maxTime = none
  polish : prm.polish = false
  primal : prm.epsPrimalInf ≤ 1 / 2294
  dual : prm.epsDualInf ≤ 1 / 37
  rel : prm.epsRel < 1

/-- One call, in any history, on a controller with these arguments, for any desired trajectories. -/
theorem di_call {menv : Mesh.Env ℝ} {solver : Solver ℝ σ} (hL : ∀ K, 4 ≤ K → K ≤ 5 → IsLGR menv K) (hB : IsLagrange menv) (hS : Solves env prm) (hP : DiParams prm)
    (l : List (Op ℝ ℝ (Fin 2 → ℝ) (Fin 1 → ℝ) 2 1 1)) (w : World ℝ ℝ (QState ℝ) (Fin 2 → ℝ) (Fin 1 → ℝ) 2 1 1)
    (hw : World.run ((diSys menv solver).withSolver (qpObject env prm fuel)) l World.empty = some w) (i : ℕ) (xd dxd : ℝ → Fin 2 → ℝ) (ud : ℝ → Fin 1 → ℝ)
    (hF : w.Follows i diArgs xd dxd ud) (t : ℝ) (x : Fin 2 → ℝ) {fuel' : ℕ} (w' : World ℝ ℝ (QState ℝ) (Fin 2 → ℝ) (Fin 1 → ℝ) 2 1 1)
    (r : Out (Fin 2 → ℝ) (Fin 1 → ℝ)) (h : w.step ((diSys menv solver).withSolver (qpObject env prm fuel')) (.call i t x) = some (w', some r)) :
    r.code = .optimal ∧ ∀ B : ℝ, 1 / 2 ≤ B → (∀ k, |x k - xd t k| ≤ B) → (∀ s, 5 * |xd s 1 - dxd s 0| ≤ B ∧ 5 * |ud s 0 - dxd s 1| ≤ B) →
      |r.u 0 - ud t 0| ≤ 1 / 2 + (prm.epsAbs + prm.epsRel * B) / (1 - prm.epsRel) := by
  obtain ⟨p, s, ws, sol, hp, -, hsol, hpr, hcode, d, hd, hru⟩ := call_answer (diSys menv solver) hS.upper l w hw i diArgs xd dxd ud hF t x w' r h
  obtain ⟨hdet, hfin⟩ := di_determines hL hB hp
  have hN := di_points
  obtain ⟨hpsd, -⟩ := isProgram_spec (vecSys_isLie 2 1 _ _ _ _) (di_f menv solver) (di_cr menv solver) hL (by rw [di_tf]; norm_num) hp
  have hver := code_verdict (hS.sqrt _) hS.epsDualInf.le (hS.finds _ _ _ hpsd) hP.maxIter hP.maxTime hsol
  have hmn : numC (nColloc (meshOf (diArgs (F := ℝ)))) 2 1 2 = numV (nColloc (meshOf (diArgs (F := ℝ)))) 2 1 := by
    unfold numC numV; omega
  have hnv : numV (nColloc (meshOf (diArgs (F := ℝ)))) 2 1 = 62 := by rw [hN]; rfl
  obtain ⟨hn1, hn2⟩ := QP.qp_square_verdict hdet hmn (by rw [hnv]; norm_num) (by norm_num) hfin hS.epsPrimalInf.le
    (by rw [hnv]; have := hP.primal; push_cast; linarith) (by have := hP.dual; linarith) hsol
  have hopt : sol.code = .optimal := by
    rcases hver with hv | hv | hv
    · exact hv
    · exact absurd hv hn1
    · exact absurd hv hn2
  refine ⟨hcode.trans hopt, fun B hB1 hBx hBf => ?_⟩
  have hkkt := (QP.qp_optimal_certificate (hS.sqrt _) hS.rho hP.polish hsol hopt).1
  obtain ⟨hl1, hl2, -⟩ := qp_layout (nColloc (meshOf (diArgs (F := ℝ)))) 2 1 1 2
  obtain ⟨z, hz, -⟩ := hl2 sol.primal
  obtain ⟨h1, h2, h3⟩ := vec_rows (di_f menv solver) (di_cr menv solver) rfl hp z sol.primal hz
  have hbd : ∀ c, ∃ a b, p.l c = .fin a ∧ p.u c = .fin b ∧ |a| ≤ B ∧ |b| ≤ B := by
    intro c
    obtain ⟨c', hc'⟩ := QCon.pos_surj c.2
    cases c' with
    | dyn i k =>
      obtain ⟨r, hr, -, e1, e2⟩ := h1 i k
      obtain rfl : r = c := Fin.ext (hr.trans hc')
      have : |-(5 : ℝ) * (![xd (t + 5 * tauAt menv (meshOf diArgs) i) 1, ud (t + 5 * tauAt menv (meshOf diArgs) i) 0] k -
          dxd (t + 5 * tauAt menv (meshOf diArgs) i) k)| ≤ B := by
        obtain ⟨g1, g2⟩ := hBf (t + 5 * tauAt menv (meshOf diArgs) i)
        rw [abs_mul, abs_neg, abs_of_pos (by norm_num : (0 : ℝ) < 5)]
        fin_cases k
        · exact g1
        · exact g2
      exact ⟨_, _, e1, e2.trans e1, this, this⟩
    | cr i k =>
      obtain ⟨r, hr, -, e1, e2⟩ := h2 i k
      obtain rfl : r = c := Fin.ext (hr.trans hc')
      refine ⟨-(1 / 2) - 0, 1 / 2 - 0, e1, e2, ?_, ?_⟩ <;> rw [sub_zero]
      · rw [abs_neg, abs_of_pos (by norm_num)]; exact hB1
      · rw [abs_of_pos (by norm_num)]; exact hB1
    | ce k =>
      obtain ⟨r, hr, -, e1, e2⟩ := h3 k
      obtain rfl : r = c := Fin.ext (hr.trans hc')
      have := hBx k
      refine ⟨_, _, e1, e2.trans e1, ?_, ?_⟩ <;> simpa using this
  obtain ⟨c, hc, hcA, hcl, hcu⟩ := h2 ⟨0, by rw [hN]; norm_num⟩ 0
  obtain ⟨a, b, ha, hb, hlo, hhi⟩ := QP.kkt_rows hkkt hS.epsRel hP.rel (by linarith) hbd c
  have ha' : a = -(1 / 2) - 0 := by rw [hcl] at ha; exact (Ext.fin.inj ha).symm
  have hb' : b = 1 / 2 - 0 := by rw [hcu] at hb; exact (Ext.fin.inj hb).symm
  have hd0 : d 0 = z (.u ⟨0, by rw [hN]; norm_num⟩ 0) := by
    unfold seg at hd
    split_ifs at hd
    have h5 := congrFun (Option.some.inj hd) 0
    rw [← h5]
    have h6 := hpr ⟨2 * (nColloc (meshOf (diArgs (F := ℝ))) + 1), by rw [hnv, hN]; norm_num⟩
    simp only [Fin.val_zero, add_zero]
    refine h6.trans ?_
    refine Eq.trans ?_ (hz (.u ⟨0, by rw [hN]; norm_num⟩ 0) (QVar.pos_lt _))
    congr 1
  have hA : (p.A *ᵥ sol.primal) c = z (.u ⟨0, by rw [hN]; norm_num⟩ 0) := by
    rw [hcA]
    simp [diArgs]
  have hru0 : r.u 0 - ud t 0 = d 0 := by
    rw [hru]
    change (ud (t + 0) + d) 0 - ud t 0 = d 0
    rw [add_zero, Pi.add_apply]
    ring
  rw [hru0, hd0, ← hA, abs_le]
  rw [ha'] at hlo
  rw [hb'] at hhi
  constructor <;> linarith

/-! ## The loop -/

/-- States and inputs of turns of 50 milliseconds from `g`: each state is where the held input has taken the previous one,
`x + v t + u t² / 2` and `v + u t`. -/
def Flow : (Fin 2 → ℝ) → List ((Fin 2 → ℝ) × (Fin 1 → ℝ) × Status) → Prop
  | _, [] => True
  | g, (g', u, _) :: l => g' = g ∧ Flow ![g 0 + g 1 * (1 / 20) + u 0 * (1 / 20) ^ 2 / 2, g 1 + u 0 * (1 / 20)] l

/-- The integrator of the example is exact. -/
theorem di_step (u : Fin 1 → ℝ) (dt : ℝ) (g : Fin 2 → ℝ) : diStep u dt g = ![g 0 + g 1 * dt + u 0 * dt ^ 2 / 2, g 1 + u 0 * dt] := by
  funext k
  fin_cases k
  · simp [diStep, di_fval, Matrix.vecHead, Matrix.vecTail]; ring
  · simp [diStep, di_fval, Matrix.vecHead, Matrix.vecTail]; ring

/-- Calls of the controller. -/
def OnlyCalls (l : List (Op ℝ ℝ (Fin 2 → ℝ) (Fin 1 → ℝ) 2 1 1)) : Prop := ∀ op ∈ l, ∃ t x, op = .call 0 t x

theorem calls_last {l : List (Op ℝ ℝ (Fin 2 → ℝ) (Fin 1 → ℝ) 2 1 1)} (hl : OnlyCalls l) : made l = [] ∧ (∀ d, lastX 0 l d = d) ∧ ∀ d, lastU 0 l d = d := by
  induction l with
  | nil => exact ⟨rfl, fun _ => rfl, fun _ => rfl⟩
  | cons op l ih =>
    obtain ⟨t, x, rfl⟩ := hl op (by simp)
    exact ih fun o ho => hl o (List.mem_cons_of_mem _ ho)

theorem di_follows {sys : Sys ℝ ℝ σ (Fin 2 → ℝ) (Fin 1 → ℝ) 2 1} {xdes dxdes : ℝ → Fin 2 → ℝ} {l : List (Op ℝ ℝ (Fin 2 → ℝ) (Fin 1 → ℝ) 2 1 1)} (hl : OnlyCalls l)
    {w : World ℝ ℝ σ (Fin 2 → ℝ) (Fin 1 → ℝ) 2 1 1} (hw : World.run sys (diSetup xdes dxdes ++ l) World.empty = some w) :
    w.Follows 0 diArgs xdes dxdes (fun _ => 0) := by
  obtain ⟨h1, h2, h3⟩ := calls_last hl
  have := mpc_follows sys (diSetup xdes dxdes ++ l) (fun op ho => by
    rcases List.mem_append.1 ho with h | h
    · simp only [diSetup, List.mem_cons, List.not_mem_nil, or_false] at h
      rcases h with rfl | rfl | rfl | rfl <;> rfl
    · obtain ⟨t, x, rfl⟩ := hl op h
      rfl) w hw 0 diArgs (by rw [made_append, h1]; rfl)
  rw [lastX_append, lastU_append, h2, h3] at this
  have e1 : ∀ {G : Type} (f : ℝ → G), relDes (fun a b : ℝ => a - b) f 0 = f := fun f => by
    funext s
    simp [relDes]
  simpa [diSetup, lastX, lastU, Op.setXRel, Op.setURel, e1] using this

theorem di_loop {menv : Mesh.Env ℝ} {solver : Solver ℝ σ} (hL : ∀ K, 4 ≤ K → K ≤ 5 → IsLGR menv K) (hB : IsLagrange menv) (hS : Solves env prm) (hP : DiParams prm)
    (xdes dxdes : ℝ → Fin 2 → ℝ) (n k : ℕ) (w : World ℝ ℝ (QState ℝ) (Fin 2 → ℝ) (Fin 1 → ℝ) 2 1 1) (g : Fin 2 → ℝ)
    (hw : Alive env prm (diSys menv solver) 1 w) (l : List (Op ℝ ℝ (Fin 2 → ℝ) (Fin 1 → ℝ) 2 1 1)) (hl : OnlyCalls l) (M : ℕ)
    (hr : ∀ fuel, M ≤ fuel → World.run ((diSys menv solver).real env prm fuel) (diSetup xdes dxdes ++ l) World.empty = some w) :
    ∃ N out, (∀ fuel, N ≤ fuel → diLoop ((diSys menv solver).real env prm fuel) n k w g = some out) ∧ out.length = n ∧ Flow g out ∧
      ∀ e ∈ out, e.2.2 = .optimal ∧ ∀ B : ℝ, 1 / 2 ≤ B → (∀ s j, |e.1 j - xdes s j| ≤ B) → (∀ s, 5 * |xdes s 1 - dxdes s 0| ≤ B ∧ 5 * |dxdes s 1| ≤ B) →
        |e.2.1 0| ≤ 1 / 2 + (prm.epsAbs + prm.epsRel * B) / (1 - prm.epsRel) := by
  induction n generalizing k w g l M with
  | zero => exact ⟨0, [], fun _ _ => rfl, rfl, trivial, fun e he => by cases he⟩
  | succ n ih =>
    obtain ⟨N1, ⟨w', o⟩, h1, h2, h3, -⟩ := step_always hS (fun _ => by norm_num) (diSys menv solver) 1 w hw (.call 0 ((k : ℝ) / 20) g) ⟨by norm_num, trivial⟩
    obtain _ | r := o
    · cases h3
    have hF := di_follows hl (hr M le_rfl)
    obtain ⟨c1, c2⟩ := di_call hL hB hS hP _ w (hr M le_rfl) 0 xdes dxdes (fun _ => 0) hF ((k : ℝ) / 20) g w' r (h1 N1 le_rfl)
    obtain ⟨N2, out, i1, i2, i3, i4⟩ := ih (k + 1) w' (diStep r.u (1 / 20) g) h2 (l ++ [.call 0 ((k : ℝ) / 20) g])
      (fun op ho => by
        rcases List.mem_append.1 ho with h | h
        · exact hl op h
        · exact ⟨_, _, List.mem_singleton.1 h⟩) (max M N1) (fun fuel hf => by
        rw [← List.append_assoc, run_append, hr fuel (le_trans (le_max_left _ _) hf), Option.bind_some, World.run, h1 fuel (le_trans (le_max_right _ _) hf)]
        rfl)
    refine ⟨max N1 N2, (g, r.u, r.code) :: out, fun fuel hf => ?_, by rw [List.length_cons, i2], ?_, fun e he => ?_⟩
    · rw [diLoop, h1 fuel (le_trans (le_max_left _ _) hf)]
      simp only [i1 fuel (le_trans (le_max_right _ _) hf), Option.map_some]
    · refine ⟨rfl, ?_⟩
      rw [di_step] at i3
      exact i3
    · rcases List.mem_cons.1 he with rfl | he
      · refine ⟨c1, fun B b1 b2 b3 => ?_⟩
        have := c2 B b1 (b2 _) (fun s => ⟨(b3 s).1, by
          have := (b3 s).2
          simp only [Pi.zero_apply, zero_sub, abs_neg]
          exact this⟩)
        simpa using this
      · exact i4 e he

/-- **C120, any desired trajectory.** The program of the example, with any desired trajectory and derivative, any initial state and any number of
turns: it runs to its end (with the same result for all fuel of the model that is enough), every call reports Optimal, so nothing is printed about a failing
solver, the states are those of a double integrator under the inputs, and the inputs leave the bounds by at most what the tolerances allow. -/
theorem mpc_double_any {menv : Mesh.Env ℝ} {solver : Solver ℝ σ} (hL : ∀ K, 4 ≤ K → K ≤ 5 → IsLGR menv K) (hB : IsLagrange menv) (hS : Solves env prm) (hP : DiParams prm)
    (xdes dxdes : ℝ → Fin 2 → ℝ) (g : Fin 2 → ℝ) (n : ℕ) :
    ∃ N out, (∀ fuel, N ≤ fuel → diMain ((diSys menv solver).withSolver (qpObject env prm fuel)) xdes dxdes g n = some out) ∧ out.length = n ∧ Flow g out ∧
      ∀ e ∈ out, e.2.2 = .optimal ∧ ∀ B : ℝ, 1 / 2 ≤ B → (∀ s j, |e.1 j - xdes s j| ≤ B) → (∀ s, 5 * |xdes s 1 - dxdes s 0| ≤ B ∧ 5 * |dxdes s 1| ≤ B) →
        |e.2.1 0| ≤ 1 / 2 + (prm.epsAbs + prm.epsRel * B) / (1 - prm.epsRel) := by
  have hM : Makeable menv (diArgs (F := ℝ)) := ⟨by simp [diArgs], by norm_num, by rw [di_tf]; norm_num, hL⟩
  have key : ∀ (l : List (Op ℝ ℝ (Fin 2 → ℝ) (Fin 1 → ℝ) 2 1 1)) (k : ℕ) (w : World ℝ ℝ (QState ℝ) (Fin 2 → ℝ) (Fin 1 → ℝ) 2 1 1),
      Alive env prm (diSys menv solver) k w → Legal menv k l → ∃ N w', (∀ fuel, N ≤ fuel → World.run ((diSys menv solver).real env prm fuel) l w = some w') ∧
        Alive env prm (diSys menv solver) (l.foldl (fun j op => op.after j) k) w' := by
    intro l
    induction l with
    | nil => exact fun k w h _ => ⟨0, w, fun _ _ => rfl, h⟩
    | cons op l ih =>
      intro k w h hl
      obtain ⟨h1, h2⟩ := legal_cons.1 hl
      obtain ⟨N, r, hr, ha, -⟩ := step_always hS (fun _ => by norm_num) (diSys menv solver) k w h op h1
      obtain ⟨M, w', e1, e2⟩ := ih (op.after k) r.1 ha h2
      refine ⟨max N M, w', fun fuel hf => ?_, e2⟩
      rw [World.run, hr fuel (le_trans (le_max_left _ _) hf), Option.bind_some, e1 fuel (le_trans (le_max_right _ _) hf)]
  obtain ⟨M, w, h1, h2⟩ := key (diSetup xdes dxdes) 0 World.empty ⟨fun _ => empty_inv, fun i o h => by simp [World.empty] at h, rfl⟩
    ⟨hM, by norm_num, by norm_num, by norm_num, trivial⟩
  obtain ⟨N, out, a1, a2, a3, a4⟩ := di_loop (solver := solver) hL hB hS hP xdes dxdes n 0 w g h2 [] (fun op h => by cases h) M (fun fuel hf => by rw [List.append_nil]; exact h1 fuel hf)
  refine ⟨max M N, out, fun fuel hf => ?_, a2, a3, a4⟩
  have e1 := h1 fuel (le_trans (le_max_left _ _) hf)
  have e2 := a1 fuel (le_trans (le_max_right _ _) hf)
  unfold diMain
  change (World.run ((diSys menv solver).real env prm fuel) (diSetup xdes dxdes) World.empty).bind _ = _
  rw [e1, Option.bind_some]
  exact e2

/-- The desired trajectory of the example (60) and its derivative. -/
noncomputable def diDes (t : ℝ) : Fin 2 → ℝ := ![-(1 / 2) * Real.sin (3 / 10 * t), 0]
noncomputable def diDesDot (t : ℝ) : Fin 2 → ℝ := ![-(3 / 20) * Real.cos (3 / 10 * t), 0]

theorem diDes_deriv (t : ℝ) : HasDerivAt diDes (diDesDot t) t := by
  rw [hasDerivAt_pi]
  intro k
  fin_cases k
  · have h1 : HasDerivAt (fun t : ℝ => 3 / 10 * t) (3 / 10) t := by simpa using (hasDerivAt_id t).const_mul (3 / 10 : ℝ)
    have h2 := (h1.sin).const_mul (-(1 / 2) : ℝ)
    refine h2.congr_deriv ?_
    simp [diDesDot]
    ring
  · exact hasDerivAt_const t 0

/-- **C120.** The example itself: from any initial state and for any number of turns every call reports Optimal, and the input exceeds the bound 1/2 by at most
`(eps_abs + eps_rel max(3/4, |x| + 1/2, |v|)) / (1 - eps_rel)`. -/
theorem mpc_double {menv : Mesh.Env ℝ} {solver : Solver ℝ σ} (hL : ∀ K, 4 ≤ K → K ≤ 5 → IsLGR menv K) (hB : IsLagrange menv) (hS : Solves env prm) (hP : DiParams prm)
    (g : Fin 2 → ℝ) (n : ℕ) :
    ∃ N out, (∀ fuel, N ≤ fuel → diMain ((diSys menv solver).withSolver (qpObject env prm fuel)) diDes diDesDot g n = some out) ∧ out.length = n ∧ Flow g out ∧
      ∀ e ∈ out, e.2.2 = .optimal ∧
        |e.2.1 0| ≤ 1 / 2 + (prm.epsAbs + prm.epsRel * max (3 / 4) (max (|e.1 0| + 1 / 2) |e.1 1|)) / (1 - prm.epsRel) := by
  obtain ⟨N, out, h1, h2, h3, h4⟩ := mpc_double_any (solver := solver) hL hB hS hP diDes diDesDot g n
  refine ⟨N, out, h1, h2, h3, fun e he => ⟨(h4 e he).1, (h4 e he).2 _ ?_ ?_ ?_⟩⟩
  · exact le_trans (by norm_num) (le_max_left _ _)
  · intro s j
    fin_cases j
    · refine le_trans ?_ (le_trans (le_max_left _ _) (le_max_right _ _))
      have a1 := Real.neg_one_le_sin (3 / 10 * s)
      have a2 := Real.sin_le_one (3 / 10 * s)
      have a3 := abs_le.1 (le_refl |e.1 0|)
      simp only [diDes, Fin.zero_eta, Matrix.cons_val_zero]
      rw [abs_le]
      constructor <;> linarith
    · refine le_trans ?_ (le_trans (le_max_right _ _) (le_max_right _ _))
      simp [diDes]
  · intro s
    have a1 := Real.neg_one_le_cos (3 / 10 * s)
    have a2 := Real.cos_le_one (3 / 10 * s)
    constructor
    · refine le_trans ?_ (le_max_left _ _)
      simp only [diDes, diDesDot, Matrix.cons_val_zero, Matrix.cons_val_one]
      have : |0 - -(3 / 20) * Real.cos (3 / 10 * s)| ≤ 3 / 20 := by
        rw [abs_le]
        constructor <;> linarith
      linarith
    · refine le_trans ?_ (le_max_left _ _)
      norm_num [diDesDot]

end Verif.MPC
