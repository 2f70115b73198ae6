import Verif.Proofs.FlattenDynD

/-! # The derivatives of the flattened dynamics (C76, C77, C78) -/

set_option linter.unusedSectionVars false

namespace Verif.Flatten

open Verif.Sparse Verif.Lie Verif.MeshFn Verif.NLP

open scoped Matrix

section

variable {F : Type*} [Field F] [DecidableEq F] {X U : Type*} {nx nu : ℕ} (LX : LieOps X F nx) (LU : LieOps U F nu)

/-- A history of calls on one object. -/
def runDyn (f : GFn X U F nx) (xl : Traj X F nx) (ul : Traj U F nu) : List (ICall F nx nu) → DynObj F → Option (DynObj F)
  | [], o => some o
  | .jac t e v :: l, o => (dynJac LX LU f xl ul t e v o).bind (runDyn f xl ul l)
  | .hess t e v :: l, o => (dynHess LX LU f xl ul t e v o).bind (runDyn f xl ul l)

/-- **C76.** The matrices that the dynamics keep between calls do not matter. -/
theorem flat_dyn_history {f : GFn X U F nx} (hf : f.Shape nx nu) (xl : Traj X F nx) (ul : Traj U F nu) (l : List (ICall F nx nu)) :
    ∃ o, runDyn LX LU f xl ul l (DynObj.init nx nu) = some o ∧ ∀ t e v,
      (∃ o', dynJac LX LU f xl ul t e v o = some o' ∧ o'.J.rows = nx ∧ o'.J.cols = 1 + nx + nu ∧
        ∀ (j : Fin nx) (a : Arg nx nu), o'.J.val j a.pos = ((flatDyn LX LU f xl ul).jac (pt t e v)).val j a.pos) ∧
      (∃ o', dynHess LX LU f xl ul t e v o = some o' ∧ o'.H.rows = 1 + nx + nu ∧ o'.H.cols = nx * (1 + nx + nu) ∧
        ∀ (j : Fin nx) (a b : Arg nx nu), o'.H.val a.pos ((1 + nx + nu) * j + b.pos) =
          ((flatDyn LX LU f xl ul).hess (pt t e v)).val a.pos ((1 + nx + nu) * j + b.pos)) := by
  have key : ∀ (l : List (ICall F nx nu)) (o : DynObj F), o.Ok nx nu → ∃ o', runDyn LX LU f xl ul l o = some o' ∧ o'.Ok nx nu := by
    intro l
    induction l with
    | nil => exact fun o ho => ⟨o, rfl, ho⟩
    | cons c l ih =>
      intro o ho
      cases c with
      | jac t e v =>
        obtain ⟨o', h1, h2, -⟩ := dynJac_spec LX LU hf xl ul t e v ho
        obtain ⟨o'', h3, h4⟩ := ih o' h2
        exact ⟨o'', by rw [runDyn, h1]; exact h3, h4⟩
      | hess t e v =>
        obtain ⟨o', h1, h2, -⟩ := dynHess_spec LX LU hf xl ul t e v ho
        obtain ⟨o'', h3, h4⟩ := ih o' h2
        exact ⟨o'', by rw [runDyn, h1]; exact h3, h4⟩
  obtain ⟨o, h1, h2⟩ := key l _ DynObj.init_ok
  refine ⟨o, h1, fun t e v => ⟨?_, ?_⟩⟩
  · obtain ⟨o', k1, k2, k3, k4, k5⟩ := dynJac_spec LX LU hf xl ul t e v h2
    refine ⟨o', k1, k3, k4, fun j a => ?_⟩
    rw [k5, (flatDyn_spec LX LU hf xl ul (pt t e v)).2.1]
    rfl
  · obtain ⟨o', k1, k2, k3⟩ := dynHess_spec LX LU hf xl ul t e v h2
    refine ⟨o', k1, k2.H_rows, k2.H_cols, fun j a b => ?_⟩
    have e1 := (flatDyn_spec LX LU hf xl ul (pt t e v)).2.2 j a b
    exact (k3 j a b).trans e1.symm

end

variable {X U 𝔸 𝔹 : Type*} {nx nu : ℕ} [NormedRing 𝔸] [NormedAlgebra ℝ 𝔸] [FiniteDimensional ℝ 𝔸] [CompleteSpace 𝔸]
  [NormedRing 𝔹] [NormedAlgebra ℝ 𝔹] [FiniteDimensional ℝ 𝔹] [CompleteSpace 𝔹]
  {LX : LieOps X ℝ nx} {LU : LieOps U ℝ nu} {mat : X → 𝔸} {hat : (Fin nx → ℝ) →ₗ[ℝ] 𝔸} {matU : U → 𝔹} {hatU : (Fin nu → ℝ) →ₗ[ℝ] 𝔹}
  {f : GFn X U ℝ nx} {xl : Traj X ℝ nx} {ul : Traj U ℝ nu} {ddx : ℝ → Fin nx → ℝ} {ddu : ℝ → Fin nu → ℝ}

/-- **C77.** The Jacobian of the flattened dynamics holds the partial derivatives by `e` and `v`; those by time lack the acceleration of the
reference, `ad(e) ẍl - dr_expinv(e) ẍl`. -/
theorem flat_dyn_jacobian (h : IsLie LX mat hat) (h' : IsLie LU matU hatU) (hf : IsDrG LX LU f) (hx : IsTraj2 mat hat xl ddx)
    (hu : IsTraj2 matU hatU ul ddu) (p : Arg nx nu → ℝ) (hr : IsUnit (LX.drExp fun k => p (.x k)).det) (j : Fin nx) :
    HasPd (fun p => (flatDyn LX LU f xl ul).val p j) (fun a => ((flatDyn LX LU f xl ul).jac p).val j a.pos +
      if a = .t then (LX.ad (fun k => p (.x k)) *ᵥ ddx (p .t) - LX.drExpinv (fun k => p (.x k)) *ᵥ ddx (p .t)) j else 0) p := by
  have h1 : ∀ i, HasPd (fun p : Arg nx nu → ℝ => LX.drExpinv (eOf p) j i) (fun a => ∑ c, LX.d2rExpinv (eOf p) j i c * if Arg.x c = a then 1 else 0) p := fun i =>
    comp_coord_hasPd (fun c => Arg.x c) (h.d2rExpinv (eOf p) hr j i)
  have h2 : HasPd (fun p => (∑ i, LX.drExpinv (eOf p) j i * wOf LX LU f xl ul p i) + ∑ r, LX.ad (eOf p) j r * xl.d (p .t) r) _ p :=
    (HasPd.sum (s := Finset.univ) fun i _ => (h1 i).mul (wOf_hasPd h h' hf hx hu p i)).add (adx_hasPd h hx p j)
  have e0 : (fun p => (flatDyn LX LU f xl ul).val p j) = fun p => (∑ i, LX.drExpinv (eOf p) j i * wOf LX LU f xl ul p i) + ∑ r, LX.ad (eOf p) j r * xl.d (p .t) r := rfl
  rw [e0]
  refine h2.of_eq fun a => ?_
  rw [(flatDyn_spec LX LU hf.shape xl ul p).2.1]
  have e1 : ∀ i c, LX.d2rExpinv (eOf p) j i c * wOf LX LU f xl ul p i = (innerVal LX LU f xl ul (p .t) (eOf p) (fun k => p (.u k)) i - xl.d (p .t) i) *
    LX.d2rExpinv (eOf p) j i c := fun i c => mul_comm _ _
  cases a with
  | t =>
    simp only [dynJ, if_true, onX, Finset.sum_add_distrib, mul_sub, Finset.sum_sub_distrib, reduceCtorEq, if_false, mul_zero, Finset.sum_const_zero, zero_mul, zero_add,
      add_zero, Pi.sub_apply]
    change _ = _ + ((∑ r, LX.ad (eOf p) j r * ddx (p .t) r) - ∑ r, LX.drExpinv (eOf p) j r * ddx (p .t) r)
    ring
  | u k => simp [onX, dynJ]
  | x c =>
    simp only [dynJ, onX, Finset.sum_add_distrib, reduceCtorEq, if_false, sub_zero, add_zero, Arg.x.injEq, mul_ite, mul_one, mul_zero, Finset.sum_ite_eq',
      Finset.mem_univ, if_true, e1]
    have e2 : ∑ r, xl.d (p .t) r * LX.gen c j r = ∑ r, LX.gen c j r * xl.d (p .t) r := Finset.sum_congr rfl fun r _ => mul_comm _ _
    rw [e2]
    ring

/-- **C77.** If the reference has constant velocity then the whole Jacobian is right. -/
theorem flat_dyn_jacobian_exact_partial (h : IsLie LX mat hat) (h' : IsLie LU matU hatU) (hf : IsDrG LX LU f) (hx : IsTraj2 mat hat xl fun _ => 0)
    (hu : IsTraj2 matU hatU ul ddu) (p : Arg nx nu → ℝ) (hr : IsUnit (LX.drExp fun k => p (.x k)).det) (j : Fin nx) :
    HasPd (fun p => (flatDyn LX LU f xl ul).val p j) (fun a => ((flatDyn LX LU f xl ul).jac p).val j a.pos) p :=
  (flat_dyn_jacobian h h' hf hx hu p hr j).of_eq fun a => by simp

/-- **C78.** The Hessian of the flattened dynamics holds the second derivatives by `e` and `v` of the dynamics with the series (up to `B₂₂`) in place of
`dr_expinv`. -/
theorem flat_dyn_hessian (h : IsLie LX mat hat) (h' : IsLie LU matU hatU) (hf : IsDrG LX LU f) (hx : IsTraj2 mat hat xl ddx)
    (hu : IsTraj2 matU hatU ul ddu) (p : Arg nx nu → ℝ) (j : Fin nx) {a b : Arg nx nu} (ha : a ≠ .t) (hb : b ≠ .t) :
    (∀ p, DifferentiableAt ℝ (fun p => truncDyn LX LU f xl ul p j) p) ∧ DifferentiableAt ℝ (pd (fun p => truncDyn LX LU f xl ul p j) a) p ∧
      ((flatDyn LX LU f xl ul).hess p).val a.pos ((1 + nx + nu) * j + b.pos) = pd (pd (fun p => truncDyn LX LU f xl ul p j) a) b p := by
  have h1 := fun p => truncDyn_hasPd h h' hf hx hu p j
  have e1 : pd (fun p => truncDyn LX LU f xl ul p j) a = fun p => truncJ LX LU f xl ul ddx p j a := funext fun p => (h1 p).pd a
  obtain ⟨τ, -, h2⟩ := truncJ_hasPd h h' hf hx hu p j a (Or.inl ha)
  rw [e1]
  refine ⟨fun p => (h1 p).differentiableAt, h2.differentiableAt, ?_⟩
  rw [h2.pd b, if_neg hb, add_zero]
  exact (flatDyn_spec LX LU hf.shape xl ul p).2.2 j a b

/-- **C78.** If the references have constant velocities then the same holds for all arguments. -/
theorem flat_dyn_hessian_const_partial (h : IsLie LX mat hat) (h' : IsLie LU matU hatU) (hf : IsDrG LX LU f) (hx : IsTraj2 mat hat xl fun _ => 0)
    (hu : IsTraj2 matU hatU ul fun _ => 0) (p : Arg nx nu → ℝ) (j : Fin nx) (a b : Arg nx nu) :
    (∀ p, DifferentiableAt ℝ (fun p => truncDyn LX LU f xl ul p j) p) ∧ DifferentiableAt ℝ (pd (fun p => truncDyn LX LU f xl ul p j) a) p ∧
      ((flatDyn LX LU f xl ul).hess p).val a.pos ((1 + nx + nu) * j + b.pos) = pd (pd (fun p => truncDyn LX LU f xl ul p j) a) b p := by
  have h1 := fun p => truncDyn_hasPd h h' hf hx hu p j
  have e1 : pd (fun p => truncDyn LX LU f xl ul p j) a = fun p => truncJ LX LU f xl ul (fun _ => 0) p j a := funext fun p => (h1 p).pd a
  obtain ⟨τ, h0, h2⟩ := truncJ_hasPd h h' hf hx hu p j a (Or.inr ⟨fun _ => rfl, rfl⟩)
  rw [e1]
  refine ⟨fun p => (h1 p).differentiableAt, h2.differentiableAt, ?_⟩
  rw [h2.pd b, h0 fun _ => rfl, ite_self, add_zero]
  exact (flatDyn_spec LX LU hf.shape xl ul p).2.2 j a b

end Verif.Flatten
