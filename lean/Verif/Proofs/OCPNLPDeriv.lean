import Verif.Proofs.OCPNLP

/-! # The nonlinear program: derivatives of the specification -/

set_option linter.unusedSectionVars false

namespace Verif.NLP

open Verif.Mesh Verif.Sparse Verif.MeshFn Verif.QP

variable {N nx nu nq : ℕ}

/-! ### Functions over the mesh -/

theorem onMesh_contDiff (a : Var N nx nu) : ContDiff ℝ 2 fun z : NVar N nx nu nq → ℝ => onMesh z a := by
  cases a <;> simp only [onMesh] <;> fun_prop

theorem onMesh_contDiff' : ContDiff ℝ 2 (onMesh : (NVar N nx nu nq → ℝ) → Var N nx nu → ℝ) := contDiff_pi.2 onMesh_contDiff

theorem pd_onMesh (a : Var N nx nu) (v : NVar N nx nu nq) (z : NVar N nx nu nq → ℝ) :
    pd (fun z => onMesh z a) v z = pullM (fun b => if b = a then 1 else 0) v := by
  cases a with
  | t0 => simp only [onMesh, pd_const]; cases v <;> simp [pullM]
  | _ => simp only [onMesh, pd_coord]; cases v <;> simp [pullM, eq_comm]

theorem sum_pullM (φ : Var N nx nu → ℝ) (v : NVar N nx nu nq) :
    ∑ a, φ a * pullM (fun b => if b = a then 1 else 0) v = pullM φ v := by
  cases v <;> simp [pullM]

theorem pd_mesh {G : (Var N nx nu → ℝ) → ℝ} (hG : Differentiable ℝ G) (v : NVar N nx nu nq) (z : NVar N nx nu nq → ℝ) :
    pd (fun z => G (onMesh z)) v z = pullM (fun a => pd G a (onMesh z)) v := by
  rw [pd_comp (hG _) (fun a => (contDiff_differentiable (onMesh_contDiff a)) z)]
  simp only [pd_onMesh]
  exact sum_pullM _ v

theorem pd_pullM {g : Var N nx nu → (NVar N nx nu nq → ℝ) → ℝ} {z : NVar N nx nu nq → ℝ} (v w : NVar N nx nu nq) :
    pd (fun z => pullM (fun a => g a z) v) w z = pullM (fun a => pd (g a) w z) v := by
  cases v <;> simp only [pullM, pd_const]

theorem pd_pd_mesh {G : (Var N nx nu → ℝ) → ℝ} (hG : ContDiff ℝ 2 G) (v w : NVar N nx nu nq) (z : NVar N nx nu nq → ℝ) :
    pd (pd (fun z => G (onMesh z)) v) w z = pullM (fun a => pullM (fun b => pd (pd G a) b (onMesh z)) w) v := by
  have h1 : pd (fun z => G (onMesh z)) v = fun z => pullM (fun a => pd G a (onMesh z)) v := by
    funext z; exact pd_mesh (contDiff_differentiable hG) v z
  rw [h1, pd_pullM (g := fun a z => pd G a (onMesh z))]
  congr 1
  funext a
  exact pd_mesh (pd_differentiable hG a) w z

/-! ### Functions of the end points -/

theorem ends_contDiff (a : EArg nx nq) : ContDiff ℝ 2 fun z : NVar N nx nu nq → ℝ => ends z a := by
  cases a <;> simp only [ends] <;> fun_prop

theorem ends_contDiff' : ContDiff ℝ 2 (ends : (NVar N nx nu nq → ℝ) → EArg nx nq → ℝ) := contDiff_pi.2 ends_contDiff

theorem pd_ends_coord (a : EArg nx nq) (v : NVar N nx nu nq) (z : NVar N nx nu nq → ℝ) :
    pd (fun z => ends z a) v z = pullE (fun b => if b = a then 1 else 0) v := by
  cases a with
  | tf => simp only [ends, pd_coord]; cases v <;> simp [pullE]
  | q k => simp only [ends, pd_coord]; cases v <;> simp [pullE, eq_comm]
  | x0 k =>
    simp only [ends, pd_coord]
    cases v with
    | x i k' =>
      by_cases h : i = 0
      · subst h; simp [pullE, eq_comm]
      · have h' : ¬ 0 = i := fun e => h e.symm
        simp [pullE, h, h']
    | _ => simp [pullE]
  | xf k =>
    simp only [ends, pd_coord]
    cases v with
    | x i k' =>
      by_cases h : i = Fin.last N
      · subst h; simp [pullE, eq_comm]
      · have h' : ¬ Fin.last N = i := fun e => h e.symm
        simp [pullE, h, h']
    | _ => simp [pullE]

theorem sum_pullE (φ : EArg nx nq → ℝ) (v : NVar N nx nu nq) :
    ∑ a, φ a * pullE (fun b => if b = a then 1 else 0) v = pullE φ v := by
  cases v with
  | x i k =>
    simp only [pullE, mul_add, Finset.sum_add_distrib]
    by_cases h : i = 0 <;> by_cases h' : i = Fin.last N <;> simp [h, h']
  | _ => simp [pullE]

theorem pd_ends {G : (EArg nx nq → ℝ) → ℝ} (hG : Differentiable ℝ G) (v : NVar N nx nu nq) (z : NVar N nx nu nq → ℝ) :
    pd (fun z => G (ends z)) v z = pullE (fun a => pd G a (ends z)) v := by
  rw [pd_comp (hG _) (fun a => (contDiff_differentiable (ends_contDiff a)) z)]
  simp only [pd_ends_coord]
  exact sum_pullE _ v

theorem pd_pullE {g : EArg nx nq → (NVar N nx nu nq → ℝ) → ℝ} {z : NVar N nx nu nq → ℝ} (hg : ∀ a, DifferentiableAt ℝ (g a) z)
    (v w : NVar N nx nu nq) : pd (fun z => pullE (fun a => g a z) v) w z = pullE (fun a => pd (g a) w z) v := by
  cases v with
  | x i k =>
    simp only [pullE]
    rw [pd_add (f := fun z => if i = 0 then g (.x0 k) z else 0) (g := fun z => if i = Fin.last N then g (.xf k) z else 0)]
    · congr 1 <;> split <;> first | rfl | exact pd_const 0 w z
    · split
      · exact hg _
      · exact differentiableAt_const _
    · split
      · exact hg _
      · exact differentiableAt_const _
  | _ => simp only [pullE, pd_const]

theorem pd_pd_ends {G : (EArg nx nq → ℝ) → ℝ} (hG : ContDiff ℝ 2 G) (v w : NVar N nx nu nq) (z : NVar N nx nu nq → ℝ) :
    pd (pd (fun z => G (ends z)) v) w z = pullE (fun a => pullE (fun b => pd (pd G a) b (ends z)) w) v := by
  have h1 : pd (fun z => G (ends z)) v = fun z => pullE (fun a => pd G a (ends z)) v := by
    funext z; exact pd_ends (contDiff_differentiable hG) v z
  have hd : ∀ a, Differentiable ℝ fun z : NVar N nx nu nq → ℝ => pd G a (ends z) := fun a =>
    (pd_differentiable hG a).comp (ends_contDiff'.differentiable (by norm_num))
  rw [h1, pd_pullE (fun a => hd a z)]
  congr 1
  funext a
  exact pd_ends (pd_differentiable hG a) w z

end Verif.NLP
