import Verif.Proofs.Partial
import Verif.Spec.FlattenDeriv

/-!
# Chain rules along moves

`mv p δ` moves the point `p` by `δ`; the derivatives of a function are those along the moves.
-/

set_option linter.unusedSectionVars false

namespace Verif.Flatten

open scoped Topology
open Filter

variable {P B ι : Type*} [Fintype B] [DecidableEq B] [Fintype ι] [DecidableEq ι]

/-- `T` are the derivatives of the map `g` in the coordinates of the moves. -/
def HasLift (mv : P → (B → ℝ) → P) (g : (ι → ℝ) → P) (T : B → ι → ℝ) (z : ι → ℝ) : Prop :=
  ∃ a : (ι → ℝ) → B → ℝ, a z = 0 ∧ (∀ k, HasPd (fun z => a z k) (T k) z) ∧ ∀ᶠ z' in 𝓝 z, g z' = mv (g z) (a z')

theorem clm_eq_sum {κ : Type*} [Fintype κ] [DecidableEq κ] {E : Type*} [NormedAddCommGroup E] [NormedSpace ℝ E] (D : (κ → ℝ) →L[ℝ] E) (w : κ → ℝ) :
    D w = ∑ k, w k • D (Pi.single k 1) := by
  conv_lhs => rw [show w = ∑ k, w k • (Pi.single k 1 : κ → ℝ) by funext j; simp [Finset.sum_apply, Pi.single_apply]]
  simp only [map_sum, map_smul]

theorem HasPd.pd {f : (ι → ℝ) → ℝ} {T : ι → ℝ} {z : ι → ℝ} (h : HasPd f T z) (a : ι) : pd f a z = T a := by
  obtain ⟨D, hD, e⟩ := h
  unfold Verif.pd
  rw [hD.fderiv, e]

theorem HasPd.differentiableAt {f : (ι → ℝ) → ℝ} {T : ι → ℝ} {z : ι → ℝ} (h : HasPd f T z) : DifferentiableAt ℝ f z := h.choose_spec.1.differentiableAt

theorem HasPd.of_eq {f : (ι → ℝ) → ℝ} {T T' : ι → ℝ} {z : ι → ℝ} (h : HasPd f T z) (e : ∀ a, T a = T' a) : HasPd f T' z := by
  rwa [← show T = T' from funext e]

theorem hasPd_of_differentiableAt {f : (ι → ℝ) → ℝ} {z : ι → ℝ} (h : DifferentiableAt ℝ f z) : HasPd f (fun a => pd f a z) z :=
  ⟨_, h.hasFDerivAt, fun _ => rfl⟩

theorem hasPd_const (c : ℝ) (z : ι → ℝ) : HasPd (fun _ => c) (fun _ => 0) z := ⟨0, hasFDerivAt_const _ _, fun _ => rfl⟩

theorem hasPd_coord (k : ι) (z : ι → ℝ) : HasPd (fun z => z k) (fun a => if k = a then 1 else 0) z :=
  (hasPd_of_differentiableAt (differentiable_coord k z)).of_eq fun a => pd_coord k a z

theorem HasPd.add {f g : (ι → ℝ) → ℝ} {T S : ι → ℝ} {z : ι → ℝ} (h : HasPd f T z) (h' : HasPd g S z) :
    HasPd (fun z => f z + g z) (fun a => T a + S a) z := by
  obtain ⟨D, hD, e⟩ := h
  obtain ⟨D', hD', e'⟩ := h'
  exact ⟨_, hD.add hD', fun a => by simp [e, e']⟩

theorem HasPd.neg {f : (ι → ℝ) → ℝ} {T : ι → ℝ} {z : ι → ℝ} (h : HasPd f T z) : HasPd (fun z => -f z) (fun a => -T a) z := by
  obtain ⟨D, hD, e⟩ := h
  exact ⟨_, hD.neg, fun a => by simp [e]⟩

theorem HasPd.sub {f g : (ι → ℝ) → ℝ} {T S : ι → ℝ} {z : ι → ℝ} (h : HasPd f T z) (h' : HasPd g S z) :
    HasPd (fun z => f z - g z) (fun a => T a - S a) z := by
  obtain ⟨D, hD, e⟩ := h
  obtain ⟨D', hD', e'⟩ := h'
  exact ⟨_, hD.sub hD', fun a => by simp [e, e']⟩

theorem HasPd.mul {f g : (ι → ℝ) → ℝ} {T S : ι → ℝ} {z : ι → ℝ} (h : HasPd f T z) (h' : HasPd g S z) :
    HasPd (fun z => f z * g z) (fun a => T a * g z + f z * S a) z := by
  obtain ⟨D, hD, e⟩ := h
  obtain ⟨D', hD', e'⟩ := h'
  refine ⟨_, hD.mul hD', fun a => ?_⟩
  simp [e, e']
  ring

theorem HasPd.sum {α : Type*} {s : Finset α} {f : α → (ι → ℝ) → ℝ} {T : α → ι → ℝ} {z : ι → ℝ} (h : ∀ i ∈ s, HasPd (f i) (T i) z) :
    HasPd (fun z => ∑ i ∈ s, f i z) (fun a => ∑ i ∈ s, T i a) z := by
  classical
  induction s using Finset.induction_on with
  | empty => simpa using hasPd_const 0 z
  | insert i s hi ih =>
    have := (h i (Finset.mem_insert_self i s)).add (ih fun j hj => h j (Finset.mem_insert_of_mem hj))
    simpa only [Finset.sum_insert hi] using this

/-- Chain rule for real functions of several variables. -/
theorem HasPd.comp {κ : Type*} [Fintype κ] [DecidableEq κ] {f : (κ → ℝ) → ℝ} {T : κ → ℝ} {g : (ι → ℝ) → κ → ℝ} {S : κ → ι → ℝ} {z : ι → ℝ}
    (h : HasPd f T (g z)) (hg : ∀ k, HasPd (fun z => g z k) (S k) z) : HasPd (fun z => f (g z)) (fun a => ∑ k, T k * S k a) z := by
  obtain ⟨D, hD, e⟩ := h
  choose G hG eG using hg
  refine ⟨_, hD.comp z (hasFDerivAt_pi.2 hG), fun a => ?_⟩
  rw [ContinuousLinearMap.comp_apply, clm_eq_sum D]
  refine Finset.sum_congr rfl fun k _ => ?_
  change G k (Pi.single a 1) * D (Pi.single k 1) = _
  rw [e, eG, mul_comm]

/-- Chain rule along moves. -/
theorem HasMv.comp {mv : P → (B → ℝ) → P} {f : P → ℝ} {J : B → ℝ} {g : (ι → ℝ) → P} {T : B → ι → ℝ} {z : ι → ℝ} (h : HasMv mv f J (g z))
    (hg : HasLift mv g T z) : HasPd (fun z => f (g z)) (fun a => ∑ k, J k * T k a) z := by
  obtain ⟨a, a0, ha, hev⟩ := hg
  have h' : HasPd (fun δ => f (mv (g z) δ)) J (a z) := by rw [a0]; exact h
  obtain ⟨D, hD, e⟩ := h'.comp ha
  refine ⟨D, hD.congr_of_eventuallyEq ?_, e⟩
  filter_upwards [hev] with z' hz'
  rw [hz']

theorem HasLift.continuousAt {mv : P → (B → ℝ) → P} {g : (ι → ℝ) → P} {T : B → ι → ℝ} {z : ι → ℝ} {f : P → ℝ}
    (h : ContinuousAt (fun δ => f (mv (g z) δ)) 0) (hg : HasLift mv g T z) : ContinuousAt (fun z => f (g z)) z := by
  obtain ⟨a, a0, ha, hev⟩ := hg
  have hc : ContinuousAt a z := continuousAt_pi.2 fun k => (ha k).differentiableAt.continuousAt
  have h' : ContinuousAt (fun δ => f (mv (g z) δ)) (a z) := by rw [a0]; exact h
  have := ContinuousAt.comp (f := a) h' hc
  refine this.congr ?_
  filter_upwards [hev] with z' hz'
  rw [hz']; rfl

/-- Second order chain rule along moves. -/
theorem HasMv.comp2 {mv : P → (B → ℝ) → P} {Jf : P → B → ℝ} {Hf : B → B → ℝ} {g : (ι → ℝ) → P} {T : (ι → ℝ) → B → ι → ℝ}
    {H : B → ι → ι → ℝ} {z : ι → ℝ} (h2 : ∀ k, HasMv mv (fun p => Jf p k) (Hf k) (g z)) (hg : HasLift mv g (T z) z)
    (hT : ∀ k a, HasPd (fun z => T z k a) (H k a) z) (a : ι) :
    HasPd (fun z => ∑ k, Jf (g z) k * T z k a) (fun b => (∑ k, ∑ l, Hf k l * T z l b * T z k a) + ∑ k, Jf (g z) k * H k a b) z := by
  have := HasPd.sum (s := Finset.univ) fun k _ => ((h2 k).comp hg).mul (hT k a)
  refine this.of_eq fun b => ?_
  rw [← Finset.sum_add_distrib]
  refine Finset.sum_congr rfl fun k _ => ?_
  rw [Finset.sum_mul]

theorem contDiff_one_of_pd {f : (ι → ℝ) → ℝ} {T : (ι → ℝ) → ι → ℝ} (h : ∀ z, HasPd f (T z) z) (hc : ∀ a, Continuous fun z => T z a) : ContDiff ℝ 1 f := by
  rw [show (1 : WithTop ℕ∞) = 0 + 1 by rfl, contDiff_succ_iff_fderiv]
  refine ⟨fun z => (h z).differentiableAt, by simp, ?_⟩
  have e : fderiv ℝ f = fun z => ∑ a, T z a • (ContinuousLinearMap.proj (R := ℝ) (φ := fun _ : ι => ℝ) a) := by
    funext z
    ext1 w
    rw [clm_eq_sum]
    simp only [ContinuousLinearMap.sum_apply, ContinuousLinearMap.smul_apply, ContinuousLinearMap.proj_apply, smul_eq_mul]
    refine Finset.sum_congr rfl fun a _ => ?_
    rw [← (h z).pd a, mul_comm]
    rfl
  rw [e, contDiff_zero]
  exact continuous_finsetSum _ fun a _ => (hc a).smul continuous_const

theorem contDiff_two_of_pd {f : (ι → ℝ) → ℝ} {T : (ι → ℝ) → ι → ℝ} {H : (ι → ℝ) → ι → ι → ℝ} (h : ∀ z, HasPd f (T z) z)
    (h2 : ∀ z a, HasPd (fun z => T z a) (H z a) z) (hc : ∀ a b, Continuous fun z => H z a b) : ContDiff ℝ 2 f := by
  rw [show (2 : WithTop ℕ∞) = 1 + 1 by rfl, contDiff_succ_iff_fderiv]
  refine ⟨fun z => (h z).differentiableAt, by simp, ?_⟩
  have e : fderiv ℝ f = fun z => ∑ a, T z a • (ContinuousLinearMap.proj (R := ℝ) (φ := fun _ : ι => ℝ) a) := by
    funext z
    ext1 w
    rw [clm_eq_sum]
    simp only [ContinuousLinearMap.sum_apply, ContinuousLinearMap.smul_apply, ContinuousLinearMap.proj_apply, smul_eq_mul]
    refine Finset.sum_congr rfl fun a _ => ?_
    rw [← (h z).pd a, mul_comm]
    rfl
  rw [e]
  exact ContDiff.sum fun a _ => (contDiff_one_of_pd (fun z => h2 z a) (hc a)).smul contDiff_const

end Verif.Flatten
