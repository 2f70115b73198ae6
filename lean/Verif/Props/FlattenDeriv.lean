import Verif.Proofs.FlattenInner
import Verif.Proofs.FlattenObj

/-!
# Derivatives of the flattened functions (C75, C76)
-/

set_option linter.unusedSectionVars false

namespace Verif.Flatten

open Verif.Sparse Verif.Lie Verif.MeshFn Verif.NLP

section

variable {F : Type*} [Field F] {X U : Type*} {nx nu nq nf : ℕ} (LX : LieOps X F nx) (LU : LieOps U F nu)

/-- A call of a derivative of an inner function. -/
inductive ICall (F : Type*) (nx nu : ℕ) where
  | jac (t : F) (e : Fin nx → F) (v : Fin nu → F)
  | hess (t : F) (e : Fin nx → F) (v : Fin nu → F)

/-- A history of calls on one object. -/
def runInner (f : GFn X U F nf) (xl : Traj X F nx) (ul : Traj U F nu) : List (ICall F nx nu) → Obj F → Option (Obj F)
  | [], o => some o
  | .jac t e v :: l, o => (innerJac LX LU f xl ul t e v o).bind (runInner f xl ul l)
  | .hess t e v :: l, o => (innerHess LX LU f xl ul t e v o).bind (runInner f xl ul l)

inductive ECall (F : Type*) (nx nq : ℕ) where
  | jac (tf : F) (e0 ef : Fin nx → F) (q : Fin nq → F)
  | hess (tf : F) (e0 ef : Fin nx → F) (q : Fin nq → F)

def runEndpt (f : GEFn X F nq nf) (xl : Traj X F nx) : List (ECall F nx nq) → Obj F → Option (Obj F)
  | [], o => some o
  | .jac tf e0 ef q :: l, o => (endptJac LX f xl tf e0 ef q o).bind (runEndpt f xl l)
  | .hess tf e0 ef q :: l, o => (endptHess LX f xl tf e0 ef q o).bind (runEndpt f xl l)

/-- **C76.** The matrices that an inner function's object keeps between calls do not matter: after any history of `jacobian` and `hessian` calls no
access is out of bounds, and the next call gives the same entries as a new object. -/
theorem flat_inner_history {f : GFn X U F nf} (hf : f.Shape nx nu) (xl : Traj X F nx) (ul : Traj U F nu) (l : List (ICall F nx nu)) :
    ∃ o, runInner LX LU f xl ul l (Obj.init (nVar nx nu) nf) = some o ∧ ∀ t e v,
      (∃ o', innerJac LX LU f xl ul t e v o = some o' ∧ o'.J.rows = nf ∧ o'.J.cols = 1 + nx + nu ∧
        ∀ (j : Fin nf) (a : Arg nx nu), o'.J.val j a.pos = ((flatInner LX LU f xl ul).jac (pt t e v)).val j a.pos) ∧
      (∃ o', innerHess LX LU f xl ul t e v o = some o' ∧ o'.H.rows = 1 + nx + nu ∧ o'.H.cols = nf * (1 + nx + nu) ∧
        ∀ (j : Fin nf) (a b : Arg nx nu), o'.H.val a.pos ((1 + nx + nu) * j + b.pos) =
          ((flatInner LX LU f xl ul).hess (pt t e v)).val a.pos ((1 + nx + nu) * j + b.pos)) := by
  have key : ∀ (l : List (ICall F nx nu)) (o : Obj F), o.Ok nx nu nf → ∃ o', runInner LX LU f xl ul l o = some o' ∧ o'.Ok nx nu nf := by
    intro l
    induction l with
    | nil => exact fun o ho => ⟨o, rfl, ho⟩
    | cons c l ih =>
      intro o ho
      cases c with
      | jac t e v =>
        obtain ⟨o', h1, h2, -⟩ := innerJac_spec LX LU hf xl ul t e v ho
        obtain ⟨o'', h3, h4⟩ := ih o' h2
        exact ⟨o'', by rw [runInner, h1]; exact h3, h4⟩
      | hess t e v =>
        obtain ⟨o', h1, h2, -⟩ := innerHess_spec LX LU hf xl ul t e v ho
        obtain ⟨o'', h3, h4⟩ := ih o' h2
        exact ⟨o'', by rw [runInner, h1]; exact h3, h4⟩
  obtain ⟨o, h1, h2⟩ := key l _ Obj.init_ok
  refine ⟨o, h1, fun t e v => ⟨?_, ?_⟩⟩
  · obtain ⟨o', k1, k2, k3, k4, k5⟩ := innerJac_spec LX LU hf xl ul t e v h2
    refine ⟨o', k1, k3, k4, fun j a => ?_⟩
    rw [k5, (flatInner_spec LX LU hf xl ul (pt t e v)).2.1]
    rfl
  · obtain ⟨o', k1, k2, k3⟩ := innerHess_spec LX LU hf xl ul t e v h2
    refine ⟨o', k1, k2.H_rows, k2.H_cols, fun j a b => ?_⟩
    have e1 := (flatInner_spec LX LU hf xl ul (pt t e v)).2.2 j a b
    exact (k3 j a b).trans e1.symm

/-- **C76.** The same for functions of the end points. -/
theorem flat_endpt_history {f : GEFn X F nq nf} (hf : f.Shape nx) (xl : Traj X F nx) (l : List (ECall F nx nq)) :
    ∃ o, runEndpt LX f xl l (Obj.init (nVarE nx nq) nf) = some o ∧ ∀ p : EArg nx nq → F,
      (∃ o', endptJac LX f xl (p .tf) (fun k => p (.x0 k)) (fun k => p (.xf k)) (fun k => p (.q k)) o = some o' ∧ o'.J.rows = nf ∧
        o'.J.cols = 1 + 2 * nx + nq ∧ ∀ (j : Fin nf) (a : EArg nx nq), o'.J.val j a.pos = ((flatEndpt LX f xl).jac p).val j a.pos) ∧
      (∃ o', endptHess LX f xl (p .tf) (fun k => p (.x0 k)) (fun k => p (.xf k)) (fun k => p (.q k)) o = some o' ∧ o'.H.rows = 1 + 2 * nx + nq ∧
        o'.H.cols = nf * (1 + 2 * nx + nq) ∧ ∀ (j : Fin nf) (a b : EArg nx nq), o'.H.val a.pos ((1 + 2 * nx + nq) * j + b.pos) =
          ((flatEndpt LX f xl).hess p).val a.pos ((1 + 2 * nx + nq) * j + b.pos)) := by
  have key : ∀ (l : List (ECall F nx nq)) (o : Obj F), o.OkE nx nq nf → ∃ o', runEndpt LX f xl l o = some o' ∧ o'.OkE nx nq nf := by
    intro l
    induction l with
    | nil => exact fun o ho => ⟨o, rfl, ho⟩
    | cons c l ih =>
      intro o ho
      cases c with
      | jac tf e0 ef q =>
        obtain ⟨o', h1, h2, -⟩ := endptJac_spec LX hf xl tf e0 ef q ho
        obtain ⟨o'', h3, h4⟩ := ih o' h2
        exact ⟨o'', by rw [runEndpt, h1]; exact h3, h4⟩
      | hess tf e0 ef q =>
        obtain ⟨o', h1, h2, -⟩ := endptHess_spec LX hf xl tf e0 ef q ho
        obtain ⟨o'', h3, h4⟩ := ih o' h2
        exact ⟨o'', by rw [runEndpt, h1]; exact h3, h4⟩
  obtain ⟨o, h1, h2⟩ := key l _ Obj.init_okE
  refine ⟨o, h1, fun p => ⟨?_, ?_⟩⟩
  · obtain ⟨o', k1, k2, k3, k4, k5⟩ := endptJac_spec LX hf xl (p .tf) (fun k => p (.x0 k)) (fun k => p (.xf k)) (fun k => p (.q k)) h2
    refine ⟨o', k1, k3, k4, fun j a => ?_⟩
    rw [k5, (flatEndpt_spec LX hf xl p).2.1]
  · obtain ⟨o', k1, k2, k3⟩ := endptHess_spec LX hf xl (p .tf) (fun k => p (.x0 k)) (fun k => p (.xf k)) (fun k => p (.q k)) h2
    refine ⟨o', k1, k2.H_rows, k2.H_cols, fun j a b => ?_⟩
    exact (k3 j a b).trans ((flatEndpt_spec LX hf xl p).2.2 j a b).symm

end

variable {X U 𝔸 𝔹 : Type*} {nx nu nq nf : ℕ} [NormedRing 𝔸] [NormedAlgebra ℝ 𝔸] [FiniteDimensional ℝ 𝔸] [CompleteSpace 𝔸]
  [NormedRing 𝔹] [NormedAlgebra ℝ 𝔹] [FiniteDimensional ℝ 𝔹] [CompleteSpace 𝔹]
  {LX : LieOps X ℝ nx} {LU : LieOps U ℝ nu} {mat : X → 𝔸} {hat : (Fin nx → ℝ) →ₗ[ℝ] 𝔸} {matU : U → 𝔹} {hatU : (Fin nu → ℝ) →ₗ[ℝ] 𝔹}
  {f : GFn X U ℝ nf} {g : GEFn X ℝ nq nf} {xl : Traj X ℝ nx} {ul : Traj U ℝ nu} {ddx : ℝ → Fin nx → ℝ} {ddu : ℝ → Fin nu → ℝ}

theorem IsDrG.shape (hf : IsDrG LX LU f) : f.Shape nx nu := ⟨hf.jac_rows, hf.jac_cols, hf.hess_rows, hf.hess_cols⟩

theorem IsDrGE.shape (hg : IsDrGE LX g) : g.Shape nx := ⟨hg.jac_rows, hg.jac_cols, hg.hess_rows, hg.hess_cols⟩

/-- **C75.** The Jacobian of a flattened inner function holds its partial derivatives. -/
theorem flat_inner_jacobian (h : IsLie LX mat hat) (h' : IsLie LU matU hatU) (hf : IsDrG LX LU f)
    (hx : ∀ t, HasVel mat hat xl.val (xl.d t) Set.univ t) (hu : ∀ t, HasVel matU hatU ul.val (ul.d t) Set.univ t) (p : Arg nx nu → ℝ) (j : Fin nf) :
    HasPd (fun p => (flatInner LX LU f xl ul).val p j) (fun a => ((flatInner LX LU f xl ul).jac p).val j a.pos) p := by
  have h1 := (hf.jac_val (gmap LX LU xl ul p) j).comp (gmap_lift h h' (hx _) (hu _))
  exact h1.of_eq fun a => ((flatInner_spec LX LU hf.shape xl ul p).2.1 j a).symm

/-- **C75.** Its Hessian holds the derivatives of the Jacobian, but the derivative by time twice lacks the accelerations of the reference. -/
theorem flat_inner_hessian (h : IsLie LX mat hat) (h' : IsLie LU matU hatU) (hf : IsDrG LX LU f) (hx : IsTraj2 mat hat xl ddx)
    (hu : IsTraj2 matU hatU ul ddu) (p : Arg nx nu → ℝ) (j : Fin nf) (a : Arg nx nu) :
    HasPd (fun p => ((flatInner LX LU f xl ul).jac p).val j a.pos) (fun b => ((flatInner LX LU f xl ul).hess p).val a.pos ((1 + nx + nu) * j + b.pos) +
      if a = .t ∧ b = .t then
        (∑ k : Fin nx, (f.jac (p .t) (LX.rplus (xl.val (p .t)) fun k => p (.x k)) (LU.rplus (ul.val (p .t)) fun k => p (.u k))).val j (1 + k) *
          adVel LX (fun k => p (.x k)) (ddx (p .t)) k) +
        ∑ k : Fin nu, (f.jac (p .t) (LX.rplus (xl.val (p .t)) fun k => p (.x k)) (LU.rplus (ul.val (p .t)) fun k => p (.u k))).val j (1 + nx + k) *
          adVel LU (fun k => p (.u k)) (ddu (p .t)) k
      else 0) p := by
  have h1 := HasMv.comp2 (Jf := fun q (k : Arg nx nu) => (f.jac q.1 q.2.1 q.2.2).val j k.pos) (g := gmap LX LU xl ul) (T := gT LX LU xl ul) (z := p)
    (fun k => hf.hess_val (gmap LX LU xl ul p) j k) (gmap_lift h h' (hx.vel _) (hu.vel _)) (fun k a => gT_hasPd h h' (hx.acc _) (hu.acc _) k a) a
  have e0 : (fun p => ((flatInner LX LU f xl ul).jac p).val j a.pos) = fun p => ∑ k : Arg nx nu, (f.jac (gmap LX LU xl ul p).1 (gmap LX LU xl ul p).2.1
      (gmap LX LU xl ul p).2.2).val j k.pos * gT LX LU xl ul p k a := funext fun p => (flatInner_spec LX LU hf.shape xl ul p).2.1 j a
  rw [e0]
  refine h1.of_eq fun b => ?_
  have e1 := (flatInner_spec LX LU hf.shape xl ul p).2.2 j a b
  change ((flatInner LX LU f xl ul).hess p).val a.pos ((1 + nx + nu) * j + b.pos) = _ at e1
  rw [e1, innerH]
  refine Eq.trans ?_ (add_assoc _ _ _).symm
  refine congrArg₂ (fun x y : ℝ => x + y) rfl ?_
  simp only [mul_add, Finset.sum_add_distrib]
  refine congrArg₂ (fun x y : ℝ => x + y) rfl ?_
  rw [sum_arg]
  by_cases hab : a = .t ∧ b = .t
  · obtain ⟨rfl, rfl⟩ := hab
    rw [if_pos ⟨rfl, rfl⟩]
    simp only [gMiss, mul_zero, zero_add]
    rfl
  · rw [if_neg hab]
    have z1 : ∀ k, gMiss LX LU (ddx (p .t)) (ddu (p .t)) p k a b = 0 := by
      intro k
      cases k <;> cases a <;> cases b <;> first | rfl | exact absurd ⟨rfl, rfl⟩ hab
    simp [z1]

/-- **C75.** If the references have constant velocities then all derivatives of a flattened inner function are right. -/
theorem flat_inner_exact_partial (h : IsLie LX mat hat) (h' : IsLie LU matU hatU) (hf : IsDrG LX LU f) (hx : IsTraj2 mat hat xl fun _ => 0)
    (hu : IsTraj2 matU hatU ul fun _ => 0) : IsDr (flatInner LX LU f xl ul) := by
  have hcx : Continuous xl.d := continuous_iff_continuousAt.2 fun t => (hx.acc t).continuousAt
  have hcu : Continuous ul.d := continuous_iff_continuousAt.2 fun t => (hu.acc t).continuousAt
  have hJ := fun p j => flat_inner_jacobian h h' hf hx.vel hu.vel p j
  have hH : ∀ p (j : Fin nf) (a : Arg nx nu), HasPd (fun p => ((flatInner LX LU f xl ul).jac p).val j a.pos)
      (fun b => ((flatInner LX LU f xl ul).hess p).val a.pos ((1 + nx + nu) * j + b.pos)) p := by
    intro p j a
    refine (flat_inner_hessian h h' hf hx hu p j a).of_eq fun b => ?_
    have z1 : ∀ k, adVel LX (fun k => p (.x k)) (0 : Fin nx → ℝ) k = 0 := adVel_zero LX _
    have z2 : ∀ k, adVel LU (fun k => p (.u k)) (0 : Fin nu → ℝ) k = 0 := adVel_zero LU _
    simp [z1, z2]
  have sh := fun p => (flatInner_spec LX LU hf.shape xl ul p).1
  refine ⟨fun j => ?_, fun p => (sh p).1, fun p => (sh p).2.1, fun p => (sh p).2.2.1, fun p => (sh p).2.2.2, fun p j a => ((hJ p j).pd a).symm,
    fun p j a b => ?_⟩
  · refine contDiff_two_of_pd (fun p => hJ p j) (fun p a => hH p j a) fun a b => ?_
    have e1 : (fun p => ((flatInner LX LU f xl ul).hess p).val a.pos ((1 + nx + nu) * j + b.pos)) = fun p =>
        (∑ k : Arg nx nu, ∑ l : Arg nx nu, (f.hess (gmap LX LU xl ul p).1 (gmap LX LU xl ul p).2.1 (gmap LX LU xl ul p).2.2).val k.pos
          ((1 + nx + nu) * j + l.pos) * gT LX LU xl ul p l b * gT LX LU xl ul p k a) +
        ∑ k : Arg nx nu, (f.jac (gmap LX LU xl ul p).1 (gmap LX LU xl ul p).2.1 (gmap LX LU xl ul p).2.2).val j k.pos * gH LX LU xl ul p k a b :=
      funext fun p => (flatInner_spec LX LU hf.shape xl ul p).2.2 j a b
    rw [e1]
    have c1 : ∀ k l : Arg nx nu, Continuous fun p => (f.hess (gmap LX LU xl ul p).1 (gmap LX LU xl ul p).2.1 (gmap LX LU xl ul p).2.2).val k.pos
        ((1 + nx + nu) * j + l.pos) := fun k l => continuous_iff_continuousAt.2 fun p =>
      HasLift.continuousAt (f := fun q : ℝ × X × U => (f.hess q.1 q.2.1 q.2.2).val k.pos ((1 + nx + nu) * j + l.pos)) (hf.hess_cont (gmap LX LU xl ul p) j k l)
        (gmap_lift h h' (hx.vel _) (hu.vel _))
    have c2 : ∀ k : Arg nx nu, Continuous fun p => (f.jac (gmap LX LU xl ul p).1 (gmap LX LU xl ul p).2.1 (gmap LX LU xl ul p).2.2).val j k.pos :=
      fun k => continuous_iff_continuousAt.2 fun p =>
        ((hf.hess_val (gmap LX LU xl ul p) j k).comp (gmap_lift h h' (hx.vel _) (hu.vel _))).differentiableAt.continuousAt
    have c3 := gT_continuous h h' hcx hcu
    have c4 := gH_continuous h h' hcx hcu
    exact (continuous_finsetSum _ fun k _ => continuous_finsetSum _ fun l _ => ((c1 k l).mul (c3 l b)).mul (c3 k a)).add
      (continuous_finsetSum _ fun k _ => (c2 k).mul (c4 k a b))
  · have e1 : pd (fun p => (flatInner LX LU f xl ul).val p j) a = fun p => ((flatInner LX LU f xl ul).jac p).val j a.pos := funext fun p => (hJ p j).pd a
    rw [e1, (hH p j a).pd b]

/-- **C75.** The Jacobian of a flattened function of the end points holds its partial derivatives. -/
theorem flat_endpt_jacobian (h : IsLie LX mat hat) (hg : IsDrGE LX g) (hx : ∀ t, HasVel mat hat xl.val (xl.d t) Set.univ t) (p : EArg nx nq → ℝ)
    (j : Fin nf) : HasPd (fun p => (flatEndpt LX g xl).val p j) (fun a => ((flatEndpt LX g xl).jac p).val j a.pos) p := by
  have h1 := (hg.jac_val (gmapE LX xl p) j).comp (gmapE_lift h (hx _))
  exact h1.of_eq fun a => ((flatEndpt_spec LX hg.shape xl p).2.1 j a).symm

/-- **C75.** Its Hessian holds the derivatives of the Jacobian, but the derivative by the final time twice lacks the acceleration of the reference. -/
theorem flat_endpt_hessian (h : IsLie LX mat hat) (hg : IsDrGE LX g) (hx : IsTraj2 mat hat xl ddx) (p : EArg nx nq → ℝ) (j : Fin nf) (a : EArg nx nq) :
    HasPd (fun p => ((flatEndpt LX g xl).jac p).val j a.pos) (fun b => ((flatEndpt LX g xl).hess p).val a.pos ((1 + 2 * nx + nq) * j + b.pos) +
      if a = .tf ∧ b = .tf then
        ∑ k : Fin nx, (g.jac (p .tf) (LX.rplus (xl.val 0) fun k => p (.x0 k)) (LX.rplus (xl.val (p .tf)) fun k => p (.xf k)) fun k => p (.q k)).val j
          (1 + nx + k) * adVel LX (fun k => p (.xf k)) (ddx (p .tf)) k
      else 0) p := by
  have h1 := HasMv.comp2 (Jf := fun q (k : EArg nx nq) => (g.jac q.1 q.2.1 q.2.2.1 q.2.2.2).val j k.pos) (g := gmapE LX xl) (T := gTE LX xl) (z := p)
    (fun k => hg.hess_val (gmapE LX xl p) j k) (gmapE_lift h (hx.vel _)) (fun k a => gTE_hasPd h (hx.acc _) k a) a
  have e0 : (fun p => ((flatEndpt LX g xl).jac p).val j a.pos) = fun p => ∑ k : EArg nx nq, (g.jac (gmapE LX xl p).1 (gmapE LX xl p).2.1
      (gmapE LX xl p).2.2.1 (gmapE LX xl p).2.2.2).val j k.pos * gTE LX xl p k a := funext fun p => (flatEndpt_spec LX hg.shape xl p).2.1 j a
  rw [e0]
  refine h1.of_eq fun b => ?_
  have e1 := (flatEndpt_spec LX hg.shape xl p).2.2 j a b
  change ((flatEndpt LX g xl).hess p).val a.pos ((1 + 2 * nx + nq) * j + b.pos) = _ at e1
  rw [e1, endptH]
  refine Eq.trans ?_ (add_assoc _ _ _).symm
  refine congrArg₂ (fun x y : ℝ => x + y) rfl ?_
  simp only [mul_add, Finset.sum_add_distrib]
  refine congrArg₂ (fun x y : ℝ => x + y) rfl ?_
  rw [sum_earg]
  by_cases hab : a = .tf ∧ b = .tf
  · obtain ⟨rfl, rfl⟩ := hab
    rw [if_pos ⟨rfl, rfl⟩]
    simp only [gMissE, mul_zero, zero_add, Finset.sum_const_zero, add_zero]
    rfl
  · rw [if_neg hab]
    have z1 : ∀ k, gMissE LX (ddx (p .tf)) p k a b = 0 := by
      intro k
      cases k <;> cases a <;> cases b <;> first | rfl | exact absurd ⟨rfl, rfl⟩ hab
    simp [z1]

/-- **C75.** If the reference has constant velocity then all derivatives of a flattened function of the end points are right. -/
theorem flat_endpt_exact_partial (h : IsLie LX mat hat) (hg : IsDrGE LX g) (hx : IsTraj2 mat hat xl fun _ => 0) : IsDrE (flatEndpt LX g xl) := by
  have hcx : Continuous xl.d := continuous_iff_continuousAt.2 fun t => (hx.acc t).continuousAt
  have hJ := fun p j => flat_endpt_jacobian h hg hx.vel p j
  have hH : ∀ p (j : Fin nf) (a : EArg nx nq), HasPd (fun p => ((flatEndpt LX g xl).jac p).val j a.pos)
      (fun b => ((flatEndpt LX g xl).hess p).val a.pos ((1 + 2 * nx + nq) * j + b.pos)) p := by
    intro p j a
    refine (flat_endpt_hessian h hg hx p j a).of_eq fun b => ?_
    have z1 : ∀ k, adVel LX (fun k => p (.xf k)) (0 : Fin nx → ℝ) k = 0 := adVel_zero LX _
    simp [z1]
  have sh := fun p => (flatEndpt_spec LX hg.shape xl p).1
  refine ⟨fun j => ?_, fun p => (sh p).1, fun p => (sh p).2.1, fun p => (sh p).2.2.1, fun p => (sh p).2.2.2, fun p j a => ((hJ p j).pd a).symm,
    fun p j a b => ?_⟩
  · refine contDiff_two_of_pd (fun p => hJ p j) (fun p a => hH p j a) fun a b => ?_
    have e1 : (fun p => ((flatEndpt LX g xl).hess p).val a.pos ((1 + 2 * nx + nq) * j + b.pos)) = fun p =>
        (∑ k : EArg nx nq, ∑ l : EArg nx nq, (g.hess (gmapE LX xl p).1 (gmapE LX xl p).2.1 (gmapE LX xl p).2.2.1 (gmapE LX xl p).2.2.2).val k.pos
          ((1 + 2 * nx + nq) * j + l.pos) * gTE LX xl p l b * gTE LX xl p k a) +
        ∑ k : EArg nx nq, (g.jac (gmapE LX xl p).1 (gmapE LX xl p).2.1 (gmapE LX xl p).2.2.1 (gmapE LX xl p).2.2.2).val j k.pos * gHE LX xl p k a b :=
      funext fun p => (flatEndpt_spec LX hg.shape xl p).2.2 j a b
    rw [e1]
    have c1 : ∀ k l : EArg nx nq, Continuous fun p => (g.hess (gmapE LX xl p).1 (gmapE LX xl p).2.1 (gmapE LX xl p).2.2.1 (gmapE LX xl p).2.2.2).val k.pos
        ((1 + 2 * nx + nq) * j + l.pos) := fun k l => continuous_iff_continuousAt.2 fun p =>
      HasLift.continuousAt (f := fun q : ℝ × X × X × (Fin nq → ℝ) => (g.hess q.1 q.2.1 q.2.2.1 q.2.2.2).val k.pos ((1 + 2 * nx + nq) * j + l.pos))
        (hg.hess_cont (gmapE LX xl p) j k l) (gmapE_lift h (hx.vel _))
    have c2 : ∀ k : EArg nx nq, Continuous fun p => (g.jac (gmapE LX xl p).1 (gmapE LX xl p).2.1 (gmapE LX xl p).2.2.1 (gmapE LX xl p).2.2.2).val j k.pos :=
      fun k => continuous_iff_continuousAt.2 fun p =>
        ((hg.hess_val (gmapE LX xl p) j k).comp (gmapE_lift h (hx.vel _))).differentiableAt.continuousAt
    have c3 := gTE_continuous (nq := nq) h hcx
    have c4 := gHE_continuous (nq := nq) h hcx
    exact (continuous_finsetSum _ fun k _ => continuous_finsetSum _ fun l _ => ((c1 k l).mul (c3 l b)).mul (c3 k a)).add
      (continuous_finsetSum _ fun k _ => (c2 k).mul (c4 k a b))
  · have e1 : pd (fun p => (flatEndpt LX g xl).val p j) a = fun p => ((flatEndpt LX g xl).jac p).val j a.pos := funext fun p => (hJ p j).pd a
    rw [e1, (hH p j a).pd b]

end Verif.Flatten
