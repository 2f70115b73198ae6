import Verif.Proofs.MeshFnBlocks
import Verif.Proofs.Partial

/-! # Functions over a mesh: derivatives of the specification -/

set_option linter.unusedSectionVars false

namespace Verif.MeshFn

open Verif.Mesh Verif.Sparse

variable {N nx nu : ℕ}

theorem nodePt_contDiff (tau : ℝ) (i : Fin N) (a : Arg nx nu) : ContDiff ℝ 2 fun z : Var N nx nu → ℝ => nodePt tau i z a := by
  cases a with
  | t => simp only [nodePt]; fun_prop
  | x k => simp only [nodePt]; fun_prop
  | u k => simp only [nodePt]; fun_prop

theorem nodePt_contDiff' (tau : ℝ) (i : Fin N) : ContDiff ℝ 2 (nodePt (nx := nx) (nu := nu) tau i) :=
  contDiff_pi.2 (nodePt_contDiff tau i)

theorem comp_contDiff {f : (Arg nx nu → ℝ) → ℝ} (hf : ContDiff ℝ 2 f) (tau : ℝ) (i : Fin N) :
    ContDiff ℝ 2 fun z => f (nodePt tau i z) := hf.comp (nodePt_contDiff' tau i)

theorem pd_nodePt (tau : ℝ) (i : Fin N) (a : Arg nx nu) (v : Var N nx nu) (z : Var N nx nu → ℝ) :
    pd (fun z => nodePt tau i z a) v z = pull tau i (fun b => if b = a then 1 else 0) v := by
  have dt0 : DifferentiableAt ℝ (fun z : Var N nx nu → ℝ => z .t0) z := (differentiable_coord _) z
  have dtf : DifferentiableAt ℝ (fun z : Var N nx nu → ℝ => z .tf) z := (differentiable_coord _) z
  cases a with
  | t =>
    simp only [nodePt]
    have e : (fun z : Var N nx nu → ℝ => z .t0 + (z .tf - z .t0) * tau) = fun z => z .t0 + tau * (z .tf - z .t0) := by
      funext z; ring
    have ds : DifferentiableAt ℝ (fun z : Var N nx nu → ℝ => z .tf - z .t0) z := dtf.sub dt0
    rw [e, pd_add (g := fun z => tau * (z .tf - z .t0)) dt0 (ds.const_mul tau), pd_const_mul tau ds, pd_sub dtf dt0, pd_coord,
      pd_coord]
    cases v <;> simp [pull]
    ring
  | x k =>
    simp only [nodePt, pd_coord]
    cases v with
    | x i' k' =>
      simp only [pull, Var.x.injEq, Arg.x.injEq]
      by_cases h : i' = i.castSucc
      · simp [h, eq_comm]
      · have h' : ¬ i.castSucc = i' := fun e => h e.symm
        simp [h, h']
    | _ => simp [pull]
  | u k =>
    simp only [nodePt, pd_coord]
    cases v with
    | u i' k' =>
      simp only [pull, Var.u.injEq, Arg.u.injEq]
      by_cases h : i' = i
      · simp [h, eq_comm]
      · have h' : ¬ i = i' := fun e => h e.symm
        simp [h, h']
    | _ => simp [pull]

theorem sum_pull (tau : ℝ) (i : Fin N) (φ : Arg nx nu → ℝ) (v : Var N nx nu) :
    ∑ a, φ a * pull tau i (fun b => if b = a then 1 else 0) v = pull tau i φ v := by
  cases v with
  | t0 => simp [pull]; ring
  | tf => simp [pull]; ring
  | x i' k =>
    by_cases h : i' = i.castSucc
    · simp [pull, h]
    · simp [pull, h]
  | u i' k =>
    by_cases h : i' = i
    · simp [pull, h]
    · simp [pull, h]

theorem pd_at_node {f : (Arg nx nu → ℝ) → ℝ} (hf : Differentiable ℝ f) (tau : ℝ) (i : Fin N) (v : Var N nx nu)
    (z : Var N nx nu → ℝ) :
    pd (fun z => f (nodePt tau i z)) v z = pull tau i (fun a => pd f a (nodePt tau i z)) v := by
  rw [pd_comp (hf _) (fun a => (contDiff_differentiable (nodePt_contDiff tau i a)) z)]
  simp only [pd_nodePt]
  exact sum_pull tau i _ v

theorem pd_pull {g : Arg nx nu → (Var N nx nu → ℝ) → ℝ} {z : Var N nx nu → ℝ} (hg : ∀ a, DifferentiableAt ℝ (g a) z) (tau : ℝ)
    (i : Fin N) (v w : Var N nx nu) :
    pd (fun z => pull tau i (fun a => g a z) v) w z = pull tau i (fun a => pd (g a) w z) v := by
  cases v with
  | t0 => simp only [pull]; rw [pd_const_mul _ (hg _)]
  | tf => simp only [pull]; rw [pd_const_mul _ (hg _)]
  | x i' k =>
    simp only [pull]
    split
    · rfl
    · exact pd_const 0 w z
  | u i' k =>
    simp only [pull]
    split
    · rfl
    · exact pd_const 0 w z

theorem pd_pd_at_node {f : (Arg nx nu → ℝ) → ℝ} (hf : ContDiff ℝ 2 f) (tau : ℝ) (i : Fin N) (v w : Var N nx nu)
    (z : Var N nx nu → ℝ) :
    pd (pd (fun z => f (nodePt tau i z)) v) w z =
      pull tau i (fun a => pull tau i (fun b => pd (pd f a) b (nodePt tau i z)) w) v := by
  have h1 : pd (fun z => f (nodePt tau i z)) v = fun z => pull tau i (fun a => pd f a (nodePt tau i z)) v := by
    funext z; exact pd_at_node (contDiff_differentiable hf) tau i v z
  have hd : ∀ a, Differentiable ℝ fun z : Var N nx nu → ℝ => pd f a (nodePt tau i z) := fun a =>
    (pd_differentiable hf a).comp (contDiff_differentiable_pi tau i)
  rw [h1, pd_pull (fun a => hd a z)]
  congr 1
  funext a
  exact pd_at_node (pd_differentiable hf a) tau i w z
where
  contDiff_differentiable_pi (tau : ℝ) (i : Fin N) : Differentiable ℝ (nodePt (nx := nx) (nu := nu) tau i) :=
    (nodePt_contDiff' tau i).differentiable (by norm_num)

theorem span_contDiff : ContDiff ℝ 2 fun z : Var N nx nu → ℝ => z .tf - z .t0 := by fun_prop

theorem pd_span (v : Var N nx nu) (z : Var N nx nu → ℝ) : pd (fun z => z .tf - z .t0) v z = dspan v := by
  rw [pd_sub ((differentiable_coord _) z) ((differentiable_coord _) z), pd_coord, pd_coord]
  cases v <;> simp [dspan]

theorem pd_span_mul {g : (Var N nx nu → ℝ) → ℝ} {z : Var N nx nu → ℝ} (hg : DifferentiableAt ℝ g z) (v : Var N nx nu) :
    pd (fun z => (z .tf - z .t0) * g z) v z = dspan v * g z + (z .tf - z .t0) * pd g v z := by
  rw [pd_mul (f := fun z => z .tf - z .t0) ((contDiff_differentiable span_contDiff) z) hg, pd_span]

theorem pd_pd_span_mul {g : (Var N nx nu → ℝ) → ℝ} (hg : ContDiff ℝ 2 g) (v w : Var N nx nu) (z : Var N nx nu → ℝ) :
    pd (pd (fun z => (z .tf - z .t0) * g z) v) w z =
      dspan v * pd g w z + dspan w * pd g v z + (z .tf - z .t0) * pd (pd g v) w z := by
  have hd := contDiff_differentiable hg
  have h1 : pd (fun z => (z .tf - z .t0) * g z) v = fun z => dspan v * g z + (z .tf - z .t0) * pd g v z := by
    funext z; exact pd_span_mul (hd z) v
  have hd2 := pd_differentiable hg v
  rw [h1, pd_add (f := fun z => dspan v * g z) (g := fun z => (z .tf - z .t0) * pd g v z) ((hd z).const_mul _)
    (((contDiff_differentiable span_contDiff) z).mul (hd2 z)), pd_const_mul _ (hd z), pd_span_mul (hd2 z), add_assoc]

theorem pd_pd_const_mul {ι : Type*} [Fintype ι] [DecidableEq ι] {g : (ι → ℝ) → ℝ} (hg : ContDiff ℝ 2 g) (c : ℝ) (v w : ι)
    (z : ι → ℝ) : pd (pd (fun z => c * g z) v) w z = c * pd (pd g v) w z := by
  have hd := contDiff_differentiable hg
  have h1 : pd (fun z => c * g z) v = fun z => c * pd g v z := by
    funext z; exact pd_const_mul c (hd z) v
  rw [h1, pd_const_mul c (pd_differentiable hg v z)]

theorem pd_pd_sum {ι α : Type*} [Fintype ι] [DecidableEq ι] {s : Finset α} {g : α → (ι → ℝ) → ℝ}
    (hg : ∀ a ∈ s, ContDiff ℝ 2 (g a)) (v w : ι) (z : ι → ℝ) :
    pd (pd (fun z => ∑ a ∈ s, g a z) v) w z = ∑ a ∈ s, pd (pd (g a) v) w z := by
  have h1 : pd (fun z => ∑ a ∈ s, g a z) v = fun z => ∑ a ∈ s, pd (g a) v z := by
    funext z; exact pd_sum (fun a ha => contDiff_differentiable (hg a ha) z) v
  rw [h1, pd_sum (f := fun a z => pd (g a) v z) (fun a ha => pd_differentiable (hg a ha) v z)]

theorem pd_pd_sub {ι : Type*} [Fintype ι] [DecidableEq ι] {f g : (ι → ℝ) → ℝ} (hf : ContDiff ℝ 2 f) (hg : ContDiff ℝ 2 g)
    (v w : ι) (z : ι → ℝ) : pd (pd (fun z => f z - g z) v) w z = pd (pd f v) w z - pd (pd g v) w z := by
  have h1 : pd (fun z => f z - g z) v = fun z => pd f v z - pd g v z := by
    funext z; exact pd_sub (contDiff_differentiable hf z) (contDiff_differentiable hg z) v
  rw [h1, pd_sub (pd_differentiable hf v z) (pd_differentiable hg v z)]

end Verif.MeshFn
