import Verif.Props.OCPNLP
import Verif.Props.MeshFnExamples

/-! # A concrete optimal control problem, and the missing second derivatives (C28, C29, C30) -/

set_option linter.unusedSectionVars false

namespace Verif.NLP

open Verif.Mesh Verif.Sparse Verif.MeshFn Verif.QP Verif.QPSpec

variable {nx nu nq ncr nce n : ℕ}

/-- The argument at a position. -/
def EArg.at (nx nq : ℕ) (c : ℕ) : EArg nx nq :=
  if h : 1 ≤ c ∧ c - 1 < nx then .x0 ⟨c - 1, h.2⟩
  else if h : 1 + nx ≤ c ∧ c - (1 + nx) < nx then .xf ⟨c - (1 + nx), h.2⟩
  else if h : 1 + 2 * nx ≤ c ∧ c - (1 + 2 * nx) < nq then .q ⟨c - (1 + 2 * nx), h.2⟩
  else .tf

theorem EArg.at_pos (a : EArg nx nq) : EArg.at nx nq a.pos = a := by
  cases a with
  | tf => simp [EArg.at, EArg.pos]
  | x0 k =>
    have := k.2
    have h : (EArg.x0 k : EArg nx nq).pos = 1 + k := rfl
    rw [EArg.at, dif_pos ⟨by omega, by omega⟩]
    congr 1
    ext; simp [h]
  | xf k =>
    have := k.2
    have h : (EArg.xf k : EArg nx nq).pos = 1 + nx + k := rfl
    rw [EArg.at, dif_neg (by omega), dif_pos ⟨by omega, by omega⟩]
    congr 1
    ext; simp [h]
  | q k =>
    have := k.2
    have h : (EArg.q k : EArg nx nq).pos = 1 + 2 * nx + k := rfl
    rw [EArg.at, dif_neg (by omega), dif_neg (by omega), dif_pos ⟨by omega, by omega⟩]
    congr 1
    ext; simp [h]

theorem EArg.pos_lt (a : EArg nx nq) : a.pos < 1 + 2 * nx + nq := by
  cases a with
  | tf => simp only [EArg.pos]; omega
  | x0 k => have := k.2; simp only [EArg.pos]; omega
  | xf k => have := k.2; simp only [EArg.pos]; omega
  | q k => have := k.2; simp only [EArg.pos]; omega

/-- Exact derivatives of a function of the end points. -/
noncomputable def drE (f : (EArg nx nq → ℝ) → Fin n → ℝ) : EFn ℝ nx nq n where
  val := f
  jac p := dense n (1 + 2 * nx + nq) fun i c => if h : i < n then pd (fun p => f p ⟨i, h⟩) (EArg.at nx nq c) p else 0
  hess p := dense (1 + 2 * nx + nq) (n * (1 + 2 * nx + nq)) fun r c => if h : c / (1 + 2 * nx + nq) < n then
    pd (pd (fun p => f p ⟨c / (1 + 2 * nx + nq), h⟩) (EArg.at nx nq r)) (EArg.at nx nq (c % (1 + 2 * nx + nq))) p else 0

/-- The assumption on derivatives can be met for every smooth function. -/
theorem drE_isDr {f : (EArg nx nq → ℝ) → Fin n → ℝ} (hf : ∀ j, ContDiff ℝ 2 fun p => f p j) : IsDrE (drE f) where
  smooth := hf
  jac_rows _ := rfl
  jac_cols _ := rfl
  hess_rows _ := rfl
  hess_cols _ := rfl
  jac_val p j a := by
    have := a.pos_lt
    simp [drE, Sp.val, dense, this, EArg.at_pos]
  hess_val p j a b := by
    have ha := a.pos_lt
    have hb := b.pos_lt
    have hlt : (1 + 2 * nx + nq) * j + b.pos < n * (1 + 2 * nx + nq) := by
      calc (1 + 2 * nx + nq) * j + b.pos < (1 + 2 * nx + nq) * j + (1 + 2 * nx + nq) := by omega
        _ = (j + 1) * (1 + 2 * nx + nq) := by ring
        _ ≤ n * (1 + 2 * nx + nq) := Nat.mul_le_mul_right _ j.2
    have hdiv : ((1 + 2 * nx + nq) * j + b.pos) / (1 + 2 * nx + nq) = j := by
      rw [Nat.mul_add_div (by omega), Nat.div_eq_of_lt hb, Nat.add_zero]
    have hmod : ((1 + 2 * nx + nq) * j + b.pos) % (1 + 2 * nx + nq) = b.pos := by
      rw [Nat.mul_add_mod, Nat.mod_eq_of_lt hb]
    simp only [drE, Sp.val, dense]
    rw [if_pos ⟨ha, hlt⟩, Option.getD_some, dif_pos (by rw [hdiv]; exact j.2)]
    simp only [hdiv, hmod, EArg.at_pos, Fin.eta]

/-- Minimise `x(0) q` with `x' = u`, `q = ∫ u`, `-1 ≤ u ≤ 2`, `x(0) = 0`. -/
noncomputable def exOCP : OCP ℝ 1 1 1 1 1 where
  theta := drE fun p _ => p (.x0 0) * p (.q 0)
  f := drOf fun p _ => p (.u 0)
  g := drOf fun p _ => p (.u 0)
  cr := drOf fun p _ => p (.u 0)
  crl := fun _ => .fin (-1)
  cru := fun _ => .fin 2
  ce := drE fun p _ => p (.x0 0)
  cel := fun _ => .fin 0
  ceu := fun _ => .fin 0

theorem exOCP_dr : IsDrOCP exOCP where
  theta := drE_isDr fun _ => by fun_prop
  f := drOf_isDr fun _ => by fun_prop
  g := drOf_isDr fun _ => by fun_prop
  cr := drOf_isDr fun _ => by fun_prop
  ce := drE_isDr fun _ => by fun_prop

/-- The same with objective `q + x(tf)^2`: no mixed derivatives. -/
noncomputable def exOCP' : OCP ℝ 1 1 1 1 1 := { exOCP with theta := drE fun p _ => p (.q 0) + p (.xf 0) * p (.xf 0) }

theorem exOCP'_dr : IsDrOCP exOCP' := { exOCP_dr with theta := drE_isDr fun _ => by fun_prop }

/-- The solution `x = t`, `u = 1`, `q = 1` until time 1. -/
noncomputable def exSol : NVar (nColloc exMesh) 1 1 1 → ℝ
  | .tf => 1
  | .q _ => 1
  | .x i _ => tauAt (lowEnv ℝ) exMesh i
  | .u _ _ => 1

/-- Its vector. -/
noncomputable def exVec {N : ℕ} (z : NVar N nx nu nq → ℝ) : Vec ℝ :=
  ⟨nVars N nx nu nq, fun r => if h : ∃ v : NVar N nx nu nq, v.pos = r then z h.choose else 0⟩

theorem exVec_val {N : ℕ} (z : NVar N nx nu nq → ℝ) (v : NVar N nx nu nq) : (exVec z).val v.pos = z v := by
  have h : ∃ w : NVar N nx nu nq, w.pos = v.pos := ⟨v, rfl⟩
  simp only [exVec]
  rw [dif_pos h, NVar.pos_inj h.choose_spec]

theorem exSol_feasible : Feasible exOCP (lowEnv ℝ) exMesh exSol where
  time := zero_le_one
  dynamics i k := by
    obtain ⟨p, hp, -, -, h⟩ := mesh_dyn_defect (lowEnv ℝ) lowEnv_lagrange le_rfl exMesh exMesh_valid
      (fun K h1 h2 => lowEnv_lgr K h1 h2) exOCP.f.val (onMesh exSol) k (fun x => x) (fun _ => Polynomial.X)
      (fun p hp => by
        have : 1 ≤ p.1.K := exMesh_K _ (mem_spans_fst hp)
        simpa using this) (fun _ _ _ _ _ => by simp) (fun _ => rfl) i
    have hw := wAt_pos (lowEnv ℝ) exMesh_valid (fun K h1 h2 => lowEnv_lgr K h1 h2) i
    rw [dynSpec] at h
    have h := mul_left_cancel₀ hw.ne' h
    rw [sub_right_inj] at h
    refine Eq.trans h ?_
    simp [exSol, exOCP, drOf, pt]
  integrals k := by
    have hsum : ∀ g : ℕ → ℝ, ∑ i : Fin (nColloc exMesh), g i = g 0 + g 1 + g 2 := by
      intro g
      rw [Fin.sum_univ_eq_sum_range, exMesh_N, Finset.sum_range_succ, Finset.sum_range_succ, Finset.sum_range_one]
    have := hsum fun i => wAt (lowEnv ℝ) exMesh i * 1
    change (1 : ℝ) = 1 * ∑ i : Fin (nColloc exMesh), wAt (lowEnv ℝ) exMesh i * 1
    rw [this]
    simp only [wAt, exWeights]
    norm_num
  running i k := ⟨show (-1 : ℝ) ≤ 1 by norm_num, show (1 : ℝ) ≤ 2 by norm_num⟩
  endpoint k := by
    have : exOCP.ce.val (ends exSol) k = 0 := exTau0
    rw [this]
    exact ⟨le_refl (0 : ℝ), le_refl (0 : ℝ)⟩

/-- `x = t` lies between the bounds of the nonlinear program, after calls of every method. -/
example (x y : Vec ℝ) (hx : x.size = nVars (nColloc exMesh) 1 1 1) (hy : y.size = nCons (nColloc exMesh) 1 1 1 1) :
    ∃ s s', history (lowEnv ℝ) exOCP exMesh [.g x, .dg x, .df x, .d2f x, .d2g x y] = some s ∧
      Obj.geval (lowEnv ℝ) exOCP exMesh (exVec exSol) s = some s' ∧
      ∀ r < numG 1 1 1 1 (nColloc exMesh),
          lower (conBounds (lowEnv ℝ) exMesh 1 1 exOCP.crl exOCP.cel (fun _ => .pos) r) (s'.g.val r) ∧
          upper (conBounds (lowEnv ℝ) exMesh 1 1 exOCP.cru exOCP.ceu (fun _ => .neg) r) (s'.g.val r) := by
  obtain ⟨s, s', e, e', h⟩ := nlp_feasible_iff (lowEnv ℝ) le_rfl exMesh exMesh_valid (fun K h1 h2 => lowEnv_lgr K h1 h2) le_rfl exOCP
    [.g x, .dg x, .df x, .d2f x, .d2g x y] (by
      intro c hc
      simp only [List.mem_cons, List.not_mem_nil, or_false] at hc
      rcases hc with rfl | rfl | rfl | rfl | rfl <;> first | exact hx | exact ⟨hx, hy⟩) (.inr exOCP_dr) (exVec exSol) rfl
    (fun _ => .pos) (fun _ => .neg)
  refine ⟨s, s', e, e', (h.2 ?_).2⟩
  simp only [exVec_val]
  exact exSol_feasible

/-- A negative final time is not feasible, whatever the rest. -/
example (x : Vec ℝ) (h : x.val 0 = -1) : ¬ Feasible exOCP (lowEnv ℝ) exMesh fun v => x.val v.pos := fun hf => by
  have := hf.time
  simp only [NVar.pos, h] at this
  norm_num at this

theorem pd_pd_theta {N : ℕ} (z : NVar N 1 1 1 → ℝ) : pd (pd (objective exOCP) (.q 0)) (.x 0 0) z = 1 := by
  have h1 : pd (objective (N := N) exOCP) (.q 0) = fun z => z (.x 0 0) := by
    funext z
    change pd (fun z : NVar N 1 1 1 → ℝ => z (.x 0 0) * z (.q 0)) (.q 0) z = _
    rw [pd_mul (f := fun z : NVar N 1 1 1 → ℝ => z (.x 0 0)) (g := fun z => z (.q 0)) (by fun_prop) (by fun_prop), pd_coord, pd_coord]
    simp
  rw [h1, pd_coord]
  simp

/-- **C30 is false as stated.** For the objective `x(0) q` the second derivative by `q` and `x(0)` is one, at every point; the
matrix that `d2f_dx2` returns has a zero there and in the transposed position: the block is asked for in the lower triangle
(ocp_to_nlp.hpp:239, 242 with `upper_only`), where nothing is written. -/
theorem nlp_d2f_wrong (x : Vec ℝ) (hx : x.size = nVars (nColloc exMesh) 1 1 1) :
    IsDrOCP exOCP ∧ ∃ s', Obj.d2fdx2 exOCP exMesh x (Obj.init 1 1 1 1 1 (nColloc exMesh)) = some s' ∧
      (NVar.q 0 : NVar (nColloc exMesh) 1 1 1).pos ≤ (NVar.x 0 0 : NVar (nColloc exMesh) 1 1 1).pos ∧
      s'.d2f.val (NVar.q 0 : NVar (nColloc exMesh) 1 1 1).pos (NVar.x 0 0 : NVar (nColloc exMesh) 1 1 1).pos = 0 ∧
      s'.d2f.val (NVar.x 0 0 : NVar (nColloc exMesh) 1 1 1).pos (NVar.q 0 : NVar (nColloc exMesh) 1 1 1).pos = 0 ∧
      pd (pd (objective exOCP) (.q 0)) (.x 0 0) (fun v : NVar (nColloc exMesh) 1 1 1 => x.val v.pos) = 1 := by
  refine ⟨exOCP_dr, ?_⟩
  obtain ⟨s, s', e, e', -, -, -, h0⟩ := nlp_d2f_exact_partial (lowEnv ℝ) exMesh exMesh_ne exMesh_K le_rfl exOCP exOCP_dr [] (by simp) x hx
  have : s = Obj.init 1 1 1 1 1 (nColloc exMesh) := (Option.some.inj e).symm
  subst this
  refine ⟨s', e', by simp [NVar.pos], h0 _ _ (.inr ⟨0, 0, 0, rfl, rfl⟩), h0 _ _ (.inl (by simp [NVar.pos])), ?_⟩
  exact pd_pd_theta _

/-- First derivatives of the example: `∂(x(0) q)/∂q = x(0)`. -/
example (x : Vec ℝ) (hx : x.size = nVars (nColloc exMesh) 1 1 1) : ∃ s',
    Obj.dfdx exOCP exMesh x (Obj.init 1 1 1 1 1 (nColloc exMesh)) = some s' ∧ s'.df.val 0 1 = x.val 2 := by
  obtain ⟨s, s', e, e', -, -, h⟩ := nlp_df_exact (lowEnv ℝ) exMesh exMesh_ne exMesh_K le_rfl exOCP exOCP_dr [] (by simp) x hx
  have : s = Obj.init 1 1 1 1 1 (nColloc exMesh) := (Option.some.inj e).symm
  subst this
  refine ⟨s', e', ?_⟩
  refine (h (.q 0)).trans ?_
  change pd (fun z : NVar (nColloc exMesh) 1 1 1 → ℝ => z (.x 0 0) * z (.q 0)) (.q 0) _ = _
  rw [pd_mul (f := fun z : NVar (nColloc exMesh) 1 1 1 → ℝ => z (.x 0 0)) (g := fun z => z (.q 0)) (by fun_prop) (by fun_prop),
    pd_coord, pd_coord]
  simp [NVar.pos]

/-- The derivative of an integral constraint by its integral variable is minus the scale. -/
example (x : Vec ℝ) (hx : x.size = nVars (nColloc exMesh) 1 1 1) : ∃ s',
    Obj.dgdx (lowEnv ℝ) exOCP exMesh x (Obj.init 1 1 1 1 1 (nColloc exMesh)) = some s' ∧
      s'.dg.val (NCon.int 0 : NCon (nColloc exMesh) 1 1 1 1).pos 1 = -wScaling (lowEnv ℝ) exMesh := by
  obtain ⟨s, s', e, e', -, -, h⟩ := nlp_dg_exact (lowEnv ℝ) exMesh exMesh_ne exMesh_K le_rfl exOCP exOCP_dr [] (by simp) x hx
  have : s = Obj.init 1 1 1 1 1 (nColloc exMesh) := (Option.some.inj e).symm
  subst this
  refine ⟨s', e', ?_⟩
  refine (h (.int 0) (.q 0)).trans ?_
  have hG := integralSpec_contDiff exOCP_dr.g (lowEnv ℝ) exMesh 0
  have hc : ContDiff ℝ 2 fun z : NVar (nColloc exMesh) 1 1 1 → ℝ => integralSpec (lowEnv ℝ) exMesh exOCP.g.val 0 (onMesh z) :=
    hG.comp onMesh_contDiff'
  change pd (fun z : NVar (nColloc exMesh) 1 1 1 → ℝ => wScaling (lowEnv ℝ) exMesh *
    (integralSpec (lowEnv ℝ) exMesh exOCP.g.val 0 (onMesh z) - z (.q 0))) (.q 0) _ = _
  rw [pd_const_mul (f := fun z : NVar (nColloc exMesh) 1 1 1 → ℝ => integralSpec (lowEnv ℝ) exMesh exOCP.g.val 0 (onMesh z) - z (.q 0)) _
      ((contDiff_differentiable hc _).sub (differentiable_coord _ _)),
    pd_sub (f := fun z : NVar (nColloc exMesh) 1 1 1 → ℝ => integralSpec (lowEnv ℝ) exMesh exOCP.g.val 0 (onMesh z))
      (g := fun z => z (.q 0)) (contDiff_differentiable hc _) (differentiable_coord _ _), pd_coord, pd_mesh (contDiff_differentiable hG)]
  simp [pullM]

/-- Exact second derivatives of the second example. -/
example (x y : Vec ℝ) (hx : x.size = nVars (nColloc exMesh) 1 1 1) (hy : y.size = nCons (nColloc exMesh) 1 1 1 1) :
    ∃ s s' s'', history (lowEnv ℝ) exOCP' exMesh [.d2f x, .d2g x y] = some s ∧ Obj.d2fdx2 exOCP' exMesh x s = some s' ∧
      Obj.d2gdx2 (lowEnv ℝ) exOCP' exMesh x y s = some s'' ∧
      s'.d2f.val (NVar.x (Fin.last _) 0 : NVar (nColloc exMesh) 1 1 1).pos (NVar.x (Fin.last _) 0 : NVar (nColloc exMesh) 1 1 1).pos = 2 := by
  have sq : ∀ p, pd (fun p : EArg 1 1 → ℝ => p (.q 0) + p (.xf 0) * p (.xf 0)) (.q 0) p = 1 := fun p => by
    rw [pd_add (f := fun p : EArg 1 1 → ℝ => p (.q 0)) (g := fun p => p (.xf 0) * p (.xf 0)) (by fun_prop) (by fun_prop),
      pd_mul (f := fun p : EArg 1 1 → ℝ => p (.xf 0)) (g := fun p => p (.xf 0)) (by fun_prop) (by fun_prop), pd_coord, pd_coord]
    simp
  obtain ⟨s, s', s'', e, e', e'', h⟩ := nlp_hessians_exact (lowEnv ℝ) exMesh exMesh_ne exMesh_K le_rfl exOCP' exOCP'_dr
    (by
      intro p j k i
      obtain rfl : k = 0 := Subsingleton.elim _ _
      have : pd (fun p => exOCP'.theta.val p j) (.q 0) = fun _ => 1 := funext sq
      rw [this]
      exact ⟨pd_const _ _ _, pd_const _ _ _⟩)
    (by
      intro p j k i
      obtain rfl : k = 0 := Subsingleton.elim _ _
      have : pd (fun p => exOCP'.ce.val p j) (.q 0) = fun _ => 0 := funext fun p => by
        change pd (fun p : EArg 1 1 → ℝ => p (.x0 0)) (.q 0) p = 0
        rw [pd_coord]; simp
      rw [this]
      exact ⟨pd_const _ _ _, pd_const _ _ _⟩)
    [.d2f x, .d2g x y] (by
      intro c hc
      simp only [List.mem_cons, List.not_mem_nil, or_false] at hc
      rcases hc with rfl | rfl <;> first | exact hx | exact ⟨hx, hy⟩) x y hx hy
  refine ⟨s, s', s'', e, e', e'', ?_⟩
  rw [(h _ _).1, if_pos le_rfl]
  have h1 : pd (objective (N := nColloc exMesh) exOCP') (.x (Fin.last _) 0) = fun z => 2 * z (.x (Fin.last _) 0) := by
    funext z
    change pd (fun z : NVar (nColloc exMesh) 1 1 1 → ℝ => z (.q 0) + z (.x (Fin.last _) 0) * z (.x (Fin.last _) 0)) (.x (Fin.last _) 0) z = _
    rw [pd_add (f := fun z : NVar (nColloc exMesh) 1 1 1 → ℝ => z (.q 0)) (g := fun z => z (.x (Fin.last _) 0) * z (.x (Fin.last _) 0))
        (by fun_prop) (by fun_prop),
      pd_mul (f := fun z : NVar (nColloc exMesh) 1 1 1 → ℝ => z (.x (Fin.last _) 0)) (g := fun z => z (.x (Fin.last _) 0)) (by fun_prop)
        (by fun_prop), pd_coord, pd_coord]
    simp
    ring
  rw [h1, pd_const_mul (f := fun z : NVar (nColloc exMesh) 1 1 1 → ℝ => z (.x (Fin.last _) 0)) _ (by fun_prop), pd_coord]
  simp

end Verif.NLP
