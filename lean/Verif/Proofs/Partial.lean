import Verif.Spec.Partial
import Mathlib.Analysis.Calculus.FDeriv.Comp
import Mathlib.Analysis.Calculus.FDeriv.Mul
import Mathlib.Analysis.Calculus.FDeriv.Add
import Mathlib.Analysis.Calculus.FDeriv.Pi
import Mathlib.Analysis.Calculus.ContDiff.Basic
import Mathlib.Analysis.Calculus.ContDiff.Operations
import Mathlib.Analysis.Calculus.ContDiff.FTaylorSeries
import Mathlib.Analysis.Calculus.FDeriv.CompCLM

/-! # Partial derivatives: lemmas -/

set_option linter.unusedSectionVars false

namespace Verif

variable {ι κ : Type*} [Fintype ι] [DecidableEq ι] [Fintype κ] [DecidableEq κ]

theorem pd_comp {f : (κ → ℝ) → ℝ} {g : (ι → ℝ) → κ → ℝ} {x : ι → ℝ} (hf : DifferentiableAt ℝ f (g x))
    (hg : ∀ k, DifferentiableAt ℝ (fun x => g x k) x) (a : ι) :
    pd (fun x => f (g x)) a x = ∑ k, pd f k (g x) * pd (fun x => g x k) a x := by
  have hg' : DifferentiableAt ℝ g x := differentiableAt_pi.2 hg
  unfold pd
  have h1 : fderiv ℝ (fun x => f (g x)) x = (fderiv ℝ f (g x)).comp (fderiv ℝ g x) := fderiv_comp x hf hg'
  rw [h1, ContinuousLinearMap.comp_apply]
  have h2 : fderiv ℝ g x (Pi.single a 1) = ∑ k, (fderiv ℝ (fun x => g x k) x (Pi.single a 1)) • (Pi.single k (1 : ℝ) : κ → ℝ) := by
    ext k
    rw [fderiv_pi hg]
    simp [Finset.sum_apply, Pi.single_apply]
  rw [h2, map_sum]
  refine Finset.sum_congr rfl fun k _ => ?_
  rw [map_smul, smul_eq_mul, mul_comm]

theorem pd_mul {f g : (ι → ℝ) → ℝ} {x : ι → ℝ} (hf : DifferentiableAt ℝ f x) (hg : DifferentiableAt ℝ g x) (a : ι) :
    pd (fun x => f x * g x) a x = pd f a x * g x + f x * pd g a x := by
  unfold pd
  rw [fderiv_fun_mul hf hg]
  simp only [add_apply, smul_apply, smul_eq_mul]
  ring

theorem pd_add {f g : (ι → ℝ) → ℝ} {x : ι → ℝ} (hf : DifferentiableAt ℝ f x) (hg : DifferentiableAt ℝ g x) (a : ι) :
    pd (fun x => f x + g x) a x = pd f a x + pd g a x := by
  unfold pd
  rw [fderiv_fun_add hf hg]; rfl

theorem pd_sub {f g : (ι → ℝ) → ℝ} {x : ι → ℝ} (hf : DifferentiableAt ℝ f x) (hg : DifferentiableAt ℝ g x) (a : ι) :
    pd (fun x => f x - g x) a x = pd f a x - pd g a x := by
  unfold pd
  rw [fderiv_fun_sub hf hg]; rfl

theorem pd_sum {α : Type*} {s : Finset α} {f : α → (ι → ℝ) → ℝ} {x : ι → ℝ} (hf : ∀ i ∈ s, DifferentiableAt ℝ (f i) x)
    (a : ι) : pd (fun x => ∑ i ∈ s, f i x) a x = ∑ i ∈ s, pd (f i) a x := by
  unfold pd
  rw [fderiv_fun_sum hf]; simp

theorem pd_const (c : ℝ) (a : ι) (x : ι → ℝ) : pd (fun _ => c) a x = 0 := by
  unfold pd; simp

theorem pd_const_mul {f : (ι → ℝ) → ℝ} {x : ι → ℝ} (c : ℝ) (hf : DifferentiableAt ℝ f x) (a : ι) :
    pd (fun x => c * f x) a x = c * pd f a x := by
  rw [pd_mul (differentiableAt_const c) hf, pd_const]; ring

theorem pd_coord (k a : ι) (x : ι → ℝ) : pd (fun x => x k) a x = if k = a then 1 else 0 := by
  unfold pd
  have : fderiv ℝ (fun x : ι → ℝ => x k) x = ContinuousLinearMap.proj k := (ContinuousLinearMap.proj (R := ℝ) (φ := fun _ : ι => ℝ) k).fderiv
  rw [this]
  simp [Pi.single_apply]

theorem differentiable_coord (k : ι) : Differentiable ℝ (fun x : ι → ℝ => x k) :=
  (ContinuousLinearMap.proj (R := ℝ) (φ := fun _ : ι => ℝ) k).differentiable

theorem pd_differentiable {f : (ι → ℝ) → ℝ} (hf : ContDiff ℝ 2 f) (a : ι) : Differentiable ℝ (pd f a) := by
  have h : ContDiff ℝ 1 (fun x => fderiv ℝ f x (Pi.single a 1)) :=
    (hf.fderiv_right (m := 1) (by norm_num)).clm_apply contDiff_const
  exact h.differentiable (by norm_num)

theorem contDiff_differentiable {f : (ι → ℝ) → ℝ} (hf : ContDiff ℝ 2 f) : Differentiable ℝ f :=
  hf.differentiable (by norm_num)

end Verif
