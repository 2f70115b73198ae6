import Verif.Spec.ASIFLie
import Verif.Props.ASIFSens
import Verif.Proofs.LieSeries
import Verif.Proofs.LieZero
import Mathlib.Analysis.Matrix.Normed
import Mathlib.Analysis.SpecialFunctions.Exponential

/-!
# The sensitivity of the safety filter on Lie groups (C49)
-/

set_option linter.unusedSectionVars false

namespace Verif.ASIF

open Verif.Lie

open scoped Matrix Topology
open Filter

variable {X U 𝔸 : Type*} {nx nu : ℕ} [NormedRing 𝔸] [NormedAlgebra ℝ 𝔸] [FiniteDimensional ℝ 𝔸] [CompleteSpace 𝔸]
  {L : LieOps X ℝ nx} {mat : X → 𝔸} {hat : (Fin nx → ℝ) →ₗ[ℝ] 𝔸}

theorem groupSens_mul (L : LieOps X ℝ nx) (d : Dyn X U ℝ nx nu) (b : Backup X U ℝ nx) (l : List ℝ) (t : ℝ) (x : X) (S : Matrix (Fin nx) (Fin nx) ℝ) :
    groupSens L d b l t x S = groupSens L d b l t x 1 * S := by
  induction l generalizing t x S with
  | nil => simp [groupSens]
  | cons e l ih =>
    rw [groupSens, groupSens, ih _ _ (_ * S), ih _ _ (_ * 1), Matrix.mul_assoc, Matrix.mul_one]

/-- A function of the group along a map into the group. -/
theorem comp_rd {E Z : Type*} [NormedAddCommGroup E] [NormedSpace ℝ E] [NormedAddCommGroup Z] [NormedSpace ℝ Z] (hL : IsLie L mat hat) {φ : X → E}
    {g : Z → X} {z : Z} {Dg : Z →L[ℝ] (Fin nx → ℝ)} {D : (Fin nx → ℝ) →L[ℝ] E} (hg : HasRd mat hat g Dg Set.univ z)
    (hφ : HasFDerivAt (fun w => φ (L.rplus (g z) w)) D 0) : HasFDerivAt (fun z => φ (g z)) (D.comp Dg) z := by
  obtain ⟨a, a0, ha, hev⟩ := hL.lift hg
  have h1 : HasFDerivAt (fun w => φ (L.rplus (g z) w)) D (a z) := by rwa [a0]
  refine (h1.comp z ha).congr_of_eventuallyEq ?_
  filter_upwards [hev] with z' hz'
  rw [hz']
  rfl

/-- The derivative of the steps along a map into the group. -/
theorem march_rd {Z : Type*} [NormedAddCommGroup Z] [NormedSpace ℝ Z] (hL : IsLie L mat hat) (env : Env X U ℝ nx nu) (he : GroupState L env)
    (d : Dyn X U ℝ nx nu) (b : Backup X U ℝ nx) (hd : HasGroupLoop L d b) (l : List ℝ) (t : ℝ) {g : Z → X} {z : Z} {Dg : Z →L[ℝ] (Fin nx → ℝ)}
    (hg : HasRd mat hat g Dg Set.univ z) :
    HasRd mat hat (fun z => march env d b l t (g z)) ((lin (groupSens L d b l t (g z) 1)).comp Dg) Set.univ z := by
  induction l generalizing t g Dg with
  | nil =>
    have : (lin (1 : Matrix (Fin nx) (Fin nx) ℝ)).comp Dg = Dg := by ext v; simp [lin_apply]
    simp only [march, groupSens, this]
    exact hg
  | cons e l ih =>
    have h1 : HasFDerivWithinAt (fun z => e • d.f (g z) (b.bu t (g z)))
        (e • (LinearMap.toContinuousLinearMap (Matrix.mulVecLin (b.dcl t (g z)))).comp Dg) Set.univ z :=
      ((comp_rd (φ := fun x => d.f x (b.bu t x)) hL hg (hd t (g z))).const_smul e).hasFDerivWithinAt
    have h2 := ih (t + e) (hL.rd_rplus hg h1)
    have e1 : (fun z => march env d b (e :: l) t (g z)) = fun z => march env d b l (t + e) (L.rplus (g z) (e • d.f (g z) (b.bu t (g z)))) := by
      funext z
      rw [march, he.plus]
    rw [e1]
    have e2 : (lin (groupSens L d b (e :: l) t (g z) 1)).comp Dg = (lin (groupSens L d b l (t + e) (L.rplus (g z) (e • d.f (g z) (b.bu t (g z)))) 1)).comp
        ((Matrix.mulVecLin (L.Ad (L.exp (-(e • d.f (g z) (b.bu t (g z))))))).toContinuousLinearMap.comp Dg +
          (Matrix.mulVecLin (L.drExp (e • d.f (g z) (b.bu t (g z))))).toContinuousLinearMap.comp
            (e • (LinearMap.toContinuousLinearMap (Matrix.mulVecLin (b.dcl t (g z)))).comp Dg)) := by
      rw [show groupSens L d b (e :: l) t (g z) 1 = groupSens L d b l (t + e) (L.rplus (g z) (e • d.f (g z) (b.bu t (g z)))) ((_ + _) * 1) from rfl,
        groupSens_mul, Matrix.mul_one]
      ext v i
      simp only [lin_apply, ContinuousLinearMap.comp_apply, ContinuousLinearMap.add_apply, ContinuousLinearMap.smul_apply, LinearMap.coe_toContinuousLinearMap',
        Matrix.mulVecLin_apply, ← Matrix.mulVec_mulVec, Matrix.add_mulVec, Matrix.smul_mulVec, Matrix.mulVec_smul]
    rw [e2]
    exact h2

theorem rd_rplus_zero (hL : IsLie L mat hat) (x : X) : HasRd mat hat (fun w => L.rplus x w) (ContinuousLinearMap.id ℝ _) Set.univ 0 := by
  have h0 : HasRd mat hat (fun _ : Fin nx → ℝ => x) 0 Set.univ 0 := ⟨0, (hasFDerivAt_const _ _).hasFDerivWithinAt, fun w => by simp⟩
  have h1 := hL.rd_rplus h0 (hasFDerivAt_id (𝕜 := ℝ) (0 : Fin nx → ℝ)).hasFDerivWithinAt
  have e : ContinuousLinearMap.id ℝ (Fin nx → ℝ) = (Matrix.mulVecLin (L.Ad (L.exp (-(0 : Fin nx → ℝ))))).toContinuousLinearMap.comp
        (0 : (Fin nx → ℝ) →L[ℝ] (Fin nx → ℝ)) +
      (Matrix.mulVecLin (L.drExp (0 : Fin nx → ℝ))).toContinuousLinearMap.comp (ContinuousLinearMap.id ℝ (Fin nx → ℝ)) := by
    refine ContinuousLinearMap.ext fun w => ?_
    simp only [ContinuousLinearMap.add_apply, ContinuousLinearMap.comp_apply, ContinuousLinearMap.id_apply, hL.drExp_zero, ContinuousLinearMap.zero_apply,
      map_zero, zero_add, LinearMap.coe_toContinuousLinearMap', Matrix.mulVecLin_apply, Matrix.one_mulVec]
  rw [e]
  exact h1

/-- **C49.** On a Lie group, the derivative of the integrated flow by the initial state is `groupSens`. -/
theorem asif_group_sens (hL : IsLie L mat hat) (env : Env X U ℝ nx nu) (he : GroupState L env) (d : Dyn X U ℝ nx nu) (b : Backup X U ℝ nx)
    (hd : HasGroupLoop L d b) (l : List ℝ) (t : ℝ) (x : X) :
    HasRd mat hat (fun w => march env d b l t (L.rplus x w)) (lin (groupSens L d b l t x 1)) Set.univ 0 := by
  have := march_rd hL env he d b hd l t (rd_rplus_zero hL x)
  rwa [hL.rplus_zero, ContinuousLinearMap.comp_id] at this

/-- It is the only derivative. -/
theorem rd_unique (hL : IsLie L mat hat) {Z : Type*} [NormedAddCommGroup Z] [NormedSpace ℝ Z] {g : Z → X} {z : Z} {D D' : Z →L[ℝ] (Fin nx → ℝ)}
    (h1 : HasRd mat hat g D Set.univ z) (h2 : HasRd mat hat g D' Set.univ z) : D = D' := by
  obtain ⟨M, hM, e⟩ := h1
  obtain ⟨M', hM', e'⟩ := h2
  rw [hasFDerivWithinAt_univ] at hM hM'
  have := hM.unique hM'
  obtain ⟨y, hy, -⟩ := hL.exists_inv (g z)
  ext1 w
  apply hL.hat_inj
  rw [← one_mul (hat (D w)), ← one_mul (hat (D' w)), ← hy, mul_assoc, mul_assoc, ← e, ← e', this]

/-- One step: `Ad(exp(-e f)) + e dr_exp(e f) Df = 1 + e dr_exp(e f) (Df - ad f)`. -/
theorem groupSens_step (hL : IsLie L mat hat) (d : Dyn X U ℝ nx nu) (b : Backup X U ℝ nx) (e t : ℝ) (x : X) :
    L.Ad (L.exp (-(e • d.f x (b.bu t x)))) + e • (L.drExp (e • d.f x (b.bu t x)) * b.dcl t x) =
      1 + e • (L.drExp (e • d.f x (b.bu t x)) * sensGen L d b t x) := by
  set v := d.f x (b.bu t x) with hv
  have h1 : L.drExp (e • v) * L.ad (e • v) = 1 - L.Ad (L.exp (-(e • v))) := by
    refine Matrix.ext_of_mulVec_single fun j => ?_
    rw [← Matrix.mulVec_mulVec, hL.drExp_ad, Matrix.sub_mulVec, Matrix.one_mulVec]
  have h2 : L.ad (e • v) = e • L.ad v := by
    rw [hL.gen, hL.gen, Finset.smul_sum]
    refine Finset.sum_congr rfl fun i _ => ?_
    rw [smul_smul]; rfl
  rw [h2, Matrix.mul_smul] at h1
  rw [sensGen, ← hv, Matrix.mul_sub, smul_sub, h1]
  abel

section

attribute [local instance] Matrix.linftyOpNormedRing Matrix.linftyOpNormedAlgebra

theorem drExp_hasSum_mat (hL : IsLie L mat hat) (a : Fin nx → ℝ) : HasSum (fun k : ℕ => ((k + 1).factorial : ℝ)⁻¹ • (-L.ad a) ^ k) (L.drExp a) := by
  have hs : Summable fun k : ℕ => ((k + 1).factorial : ℝ)⁻¹ • (-L.ad a) ^ k := (exp1_summable (-L.ad a)).of_norm
  have e : ∑' k : ℕ, ((k + 1).factorial : ℝ)⁻¹ • (-L.ad a) ^ k = L.drExp a := by
    refine Matrix.ext_of_mulVec_single fun j => ?_
    let φ : Matrix (Fin nx) (Fin nx) ℝ →ₗ[ℝ] (Fin nx → ℝ) :=
      { toFun := fun M => M *ᵥ Pi.single j 1
        map_add' := fun M N => Matrix.add_mulVec _ _ _
        map_smul' := fun c M => Matrix.smul_mulVec c M _ }
    have h1 := hs.hasSum.mapL (LinearMap.toContinuousLinearMap φ)
    have h2 := hL.drExp_hasSum a (Pi.single j 1)
    refine h1.unique ?_
    have e3 : (fun k : ℕ => (LinearMap.toContinuousLinearMap φ) (((k + 1).factorial : ℝ)⁻¹ • (-L.ad a) ^ k)) =
        fun k : ℕ => ((k + 1).factorial : ℝ)⁻¹ • ((-L.ad a) ^ k *ᵥ Pi.single j 1) := funext fun k => Matrix.smul_mulVec _ ((-L.ad a) ^ k) _
    rw [e3]
    exact h2
  rw [← e]
  exact hs.hasSum

theorem exp_terms (r : ℝ) : HasSum (fun k : ℕ => ((k.factorial : ℝ)⁻¹ * r ^ k)) (Real.exp r) := by
  have := NormedSpace.exp_series_hasSum_exp' (𝕂 := ℝ) r
  rw [← Real.exp_eq_exp_ℝ] at this
  simpa using this

/-- `dr_exp(a)` is near the identity. -/
theorem drExp_sub_one_norm (hL : IsLie L mat hat) (a : Fin nx → ℝ) : ‖L.drExp a - 1‖ ≤ ‖L.ad a‖ / 2 * Real.exp ‖L.ad a‖ := by
  have h1 := drExp_hasSum_mat hL a
  have h2 := (hasSum_nat_add_iff' 1).2 h1
  simp only [Finset.sum_range_one, zero_add, Nat.factorial_one, Nat.cast_one, inv_one, pow_zero, one_smul] at h2
  rw [← h2.tsum_eq]
  have h3 := (exp_terms ‖L.ad a‖).mul_left (‖L.ad a‖ / 2)
  refine tsum_of_norm_bounded h3 fun k => ?_
  rw [norm_smul, norm_inv, Real.norm_natCast]
  have h4 : ‖(-L.ad a) ^ (k + 1)‖ ≤ ‖L.ad a‖ ^ (k + 1) := by
    have := norm_pow_le' (-L.ad a) (Nat.succ_pos k)
    rwa [norm_neg] at this
  have h5 : (2 * k.factorial : ℝ) ≤ ((k + 1 + 1).factorial : ℝ) := by
    have : 2 * k.factorial ≤ (k + 1 + 1).factorial := by
      rw [Nat.factorial_succ, Nat.factorial_succ]
      have := Nat.factorial_pos k
      nlinarith [Nat.zero_le (k * k * k.factorial), Nat.zero_le (k * k.factorial)]
    exact_mod_cast this
  have h6 : (0 : ℝ) < k.factorial := by exact_mod_cast Nat.factorial_pos k
  calc (((k + 1 + 1).factorial : ℝ))⁻¹ * ‖(-L.ad a) ^ (k + 1)‖ ≤ (2 * k.factorial : ℝ)⁻¹ * ‖L.ad a‖ ^ (k + 1) := by gcongr
    _ = ‖L.ad a‖ / 2 * ((k.factorial : ℝ)⁻¹ * ‖L.ad a‖ ^ k) := by rw [pow_succ]; field_simp

theorem drExp_norm (hL : IsLie L mat hat) (a : Fin nx → ℝ) : ‖L.drExp a‖ ≤ Real.exp ‖L.ad a‖ := by
  rcases isEmpty_or_nonempty (Fin nx) with hn | hn
  · rw [Subsingleton.elim (L.drExp a) 0, norm_zero]
    exact (Real.exp_pos _).le
  have h1 := drExp_hasSum_mat hL a
  rw [← h1.tsum_eq]
  refine tsum_of_norm_bounded (exp_terms ‖L.ad a‖) fun k => ?_
  rw [norm_smul, norm_inv, Real.norm_natCast]
  have h4 : ‖(-L.ad a) ^ k‖ ≤ ‖L.ad a‖ ^ k := by
    have := norm_pow_le (-L.ad a) k
    rwa [norm_neg] at this
  gcongr
  omega

theorem step_norm (A S : Matrix (Fin nx) (Fin nx) ℝ) {e K : ℝ} (h0 : 0 ≤ e) (hK : ‖A‖ ≤ K) : ‖S + e • (A * S)‖ ≤ (1 + e * K) * ‖S‖ := by
  have h1 : ‖A * S‖ ≤ K * ‖S‖ := (norm_mul_le _ _).trans (mul_le_mul_of_nonneg_right hK (norm_nonneg _))
  calc ‖S + e • (A * S)‖ ≤ ‖S‖ + ‖e • (A * S)‖ := norm_add_le _ _
    _ = ‖S‖ + e * ‖A * S‖ := by rw [norm_smul, Real.norm_of_nonneg h0]
    _ ≤ ‖S‖ + e * (K * ‖S‖) := by gcongr
    _ = (1 + e * K) * ‖S‖ := by ring

/-- **C49.** The error of the filter's sensitivity on a Lie group, in the row-sum norm. On the states that are passed (`Q`), let the closed loop
have a velocity of at most `V`, with `‖ad v‖ ≤ a`, and let `Df - ad f` be bounded by `K` and Lipschitz with constant `M`. Then the error is at most
`T exp(a dt + K exp(a dt) T) (a K / 2 + M V)` times the step length, with `T` the sum of the steps. -/
theorem asif_group_sens_error (hL : IsLie L mat hat) (env : Env X U ℝ nx nu) (he : GroupState L env) (d : Dyn X U ℝ nx nu) (b : Backup X U ℝ nx)
    (Q : Set X) (K M V a dt : ℝ) (hM : 0 ≤ M) (hV : ∀ t, ∀ x ∈ Q, ‖d.f x (b.bu t x)‖ ≤ V) (ha : ∀ t, ∀ x ∈ Q, ‖L.ad (d.f x (b.bu t x))‖ ≤ a)
    (hK : ∀ t, ∀ x ∈ Q, ‖b.dcl t x - L.ad (d.f x (b.bu t x))‖ ≤ K)
    (hLip : ∀ t, ∀ x ∈ Q, ∀ w, L.rplus x w ∈ Q → ‖sensGen L d b t (L.rplus x w) - sensGen L d b t x‖ ≤ M * ‖w‖)
    (l : List ℝ) (hl : ∀ e ∈ l, 0 ≤ e ∧ e ≤ dt) (t : ℝ) (x : X) (hQ : ∀ n ≤ l.length, march env d b (l.take n) t x ∈ Q)
    (S E : Matrix (Fin nx) (Fin nx) ℝ) :
    ‖sens env d b l t x S - groupSens L d b l t x E‖ ≤
      Real.exp (Real.exp (a * dt) * K * l.sum) * (‖S - E‖ + l.sum * (Real.exp (a * dt) * (a * K / 2) + M * V) * dt * ‖E‖) := by
  induction l generalizing t x S E with
  | nil => simp [sens, groupSens]
  | cons e l ih =>
    obtain ⟨h0, hdt⟩ := hl e (by simp)
    have hx : x ∈ Q := by simpa [march] using hQ 0 (by simp)
    have hy : L.rplus x (e • d.f x (b.bu t x)) ∈ Q := by simpa [march, he.plus] using hQ 1 (by simp)
    have hQ' : ∀ n ≤ l.length, march env d b (l.take n) (t + e) (L.rplus x (e • d.f x (b.bu t x))) ∈ Q := by
      intro n hn
      have := hQ (n + 1) (by simpa using hn)
      rwa [List.take_succ_cons, march, he.plus] at this
    have hK0 : 0 ≤ K := (norm_nonneg _).trans (hK t x hx)
    have hV0 : 0 ≤ V := (norm_nonneg _).trans (hV t x hx)
    have ha0 : 0 ≤ a := (norm_nonneg _).trans (ha t x hx)
    have hs0 : 0 ≤ l.sum := List.sum_nonneg fun e' h' => (hl e' (by simp [h'])).1
    have hd0 : 0 ≤ dt := h0.trans hdt
    set κ := Real.exp (a * dt) with hκ
    have hκ1 : 1 ≤ κ := Real.one_le_exp (by positivity)
    set C := κ * (a * K / 2) + M * V with hC
    have hC0 : 0 ≤ C := by positivity
    set v := d.f x (b.bu t x) with hv
    set y := L.rplus x (e • v) with hyd
    have e1 : sens env d b (e :: l) t x S = sens env d b l (t + e) y (S + e • (sensGen L d b t y * S)) := by
      rw [sens, he.plus, he.ad]
      rfl
    have e2 : groupSens L d b (e :: l) t x E = groupSens L d b l (t + e) y (E + e • (L.drExp (e • v) * sensGen L d b t x * E)) := by
      rw [groupSens, groupSens_step hL, Matrix.add_mul, Matrix.one_mul, Matrix.smul_mul]
    rw [e1, e2]
    refine (ih (fun e' h' => hl e' (by simp [h'])) (t + e) y hQ' _ _).trans ?_
    -- the derivative of the exponential
    have had : ‖L.ad (e • v)‖ ≤ a * e := by
      have h2 : L.ad (e • v) = e • L.ad v := by
        rw [hL.gen, hL.gen, Finset.smul_sum]
        refine Finset.sum_congr rfl fun i _ => ?_
        rw [smul_smul]; rfl
      rw [h2, norm_smul, Real.norm_of_nonneg h0, mul_comm]
      exact mul_le_mul_of_nonneg_right (ha t x hx) h0
    have hexp : Real.exp ‖L.ad (e • v)‖ ≤ κ := Real.exp_le_exp.2 (had.trans (by gcongr))
    have hdr : ‖L.drExp (e • v)‖ ≤ κ := (drExp_norm hL _).trans hexp
    have hdr1 : ‖L.drExp (e • v) - 1‖ ≤ a * dt / 2 * κ := by
      refine (drExp_sub_one_norm hL _).trans (mul_le_mul ?_ hexp (Real.exp_pos _).le (by positivity))
      have : a * e ≤ a * dt := by gcongr
      linarith
    have hG : ‖L.drExp (e • v) * sensGen L d b t x‖ ≤ κ * K :=
      (norm_mul_le _ _).trans (mul_le_mul hdr (hK t x hx) (norm_nonneg _) (zero_le_one.trans hκ1))
    have hKκ : K ≤ κ * K := le_mul_of_one_le_left hK0 hκ1
    have hE : ‖E + e • (L.drExp (e • v) * sensGen L d b t x * E)‖ ≤ (1 + e * (κ * K)) * ‖E‖ := step_norm _ E h0 hG
    have hGd : ‖sensGen L d b t y - L.drExp (e • v) * sensGen L d b t x‖ ≤ C * dt := by
      have : sensGen L d b t y - L.drExp (e • v) * sensGen L d b t x = (sensGen L d b t y - sensGen L d b t x) - (L.drExp (e • v) - 1) * sensGen L d b t x := by
        rw [Matrix.sub_mul, Matrix.one_mul]; abel
      rw [this]
      have h1 : ‖sensGen L d b t y - sensGen L d b t x‖ ≤ M * (dt * V) := by
        refine (hLip t x hx _ hy).trans (mul_le_mul_of_nonneg_left ?_ hM)
        rw [norm_smul, Real.norm_of_nonneg h0]
        exact mul_le_mul hdt (hV t x hx) (norm_nonneg _) hd0
      have h2 : ‖(L.drExp (e • v) - 1) * sensGen L d b t x‖ ≤ a * dt / 2 * κ * K :=
        (norm_mul_le _ _).trans (mul_le_mul hdr1 (hK t x hx) (norm_nonneg _) (by positivity))
      refine (norm_sub_le _ _).trans ((add_le_add h1 h2).trans (le_of_eq ?_))
      rw [hC]; ring
    have hSE : ‖S + e • (sensGen L d b t y * S) - (E + e • (L.drExp (e • v) * sensGen L d b t x * E))‖ ≤ (1 + e * (κ * K)) * ‖S - E‖ + e * (C * dt * ‖E‖) := by
      have : S + e • (sensGen L d b t y * S) - (E + e • (L.drExp (e • v) * sensGen L d b t x * E)) =
          (S - E + e • (sensGen L d b t y * (S - E))) + e • ((sensGen L d b t y - L.drExp (e • v) * sensGen L d b t x) * E) := by
        rw [Matrix.mul_sub, Matrix.sub_mul, smul_sub, smul_sub]
        abel
      rw [this]
      refine (norm_add_le _ _).trans (add_le_add (step_norm _ _ h0 ((hK t y hy).trans hKκ)) ?_)
      rw [norm_smul, Real.norm_of_nonneg h0]
      exact mul_le_mul_of_nonneg_left ((norm_mul_le _ _).trans (mul_le_mul_of_nonneg_right hGd (norm_nonneg _))) h0
    have hexp1 : 1 + e * (κ * K) ≤ Real.exp (κ * K * e) := by
      have := Real.add_one_le_exp (κ * K * e)
      linarith
    have h1exp : 1 ≤ Real.exp (κ * K * e) := Real.one_le_exp (by positivity)
    rw [List.sum_cons, show κ * K * (e + l.sum) = κ * K * l.sum + κ * K * e by ring, Real.exp_add, mul_assoc (Real.exp (κ * K * l.sum))]
    refine mul_le_mul_of_nonneg_left ?_ (Real.exp_pos _).le
    calc ‖S + e • (sensGen L d b t y * S) - (E + e • (L.drExp (e • v) * sensGen L d b t x * E))‖ +
          l.sum * C * dt * ‖E + e • (L.drExp (e • v) * sensGen L d b t x * E)‖
        ≤ (1 + e * (κ * K)) * ‖S - E‖ + e * (C * dt * ‖E‖) + l.sum * C * dt * ((1 + e * (κ * K)) * ‖E‖) := by gcongr
      _ ≤ Real.exp (κ * K * e) * ‖S - E‖ + Real.exp (κ * K * e) * (e * (C * dt * ‖E‖)) + l.sum * C * dt * (Real.exp (κ * K * e) * ‖E‖) := by
          have h3 : 0 ≤ e * (C * dt * ‖E‖) := by positivity
          have h4 := le_mul_of_one_le_left h3 h1exp
          gcongr
      _ = Real.exp (κ * K * e) * (‖S - E‖ + (e + l.sum) * C * dt * ‖E‖) := by ring

end

/-- **C49.** Along the integrated flow, the derivative of the barrier under a change of the initial state with the velocity `v`, while time advances,
is the expression of the filter with the exact sensitivity. -/
theorem asif_group_barrier (hL : IsLie L mat hat) (env : Env X U ℝ nx nu) (he : GroupState L env) (d : Dyn X U ℝ nx nu) (b : Backup X U ℝ nx)
    (hd : HasGroupLoop L d b) (h : Barrier X ℝ nx) (l : List ℝ) {c : ℝ → X} {v : Fin nx → ℝ} (hc : HasVel mat hat c v Set.univ 0) (j : Fin h.nh)
    (hh : HasBarrierD L h l.sum (march env d b l 0 (c 0)) j) :
    HasDerivAt (fun s : ℝ => h.h (l.sum + s) (march env d b l 0 (c s)) j)
      (h.dt l.sum (march env d b l 0 (c 0)) j + (h.dx l.sum (march env d b l 0 (c 0))).mulVec ((groupSens L d b l 0 (c 0) 1).mulVec v) j) 0 := by
  obtain ⟨D, hD, e1, e2⟩ := hh
  have h1 := march_rd hL env he d b hd l 0 (hasVel_iff.1 hc)
  obtain ⟨w, w0, hw, hev⟩ := hL.lift h1
  have h2 : HasFDerivAt (fun s : ℝ => (s, w s)) ((ContinuousLinearMap.id ℝ ℝ).prod ((lin (groupSens L d b l 0 (c 0) 1)).comp
      ((ContinuousLinearMap.id ℝ ℝ).smulRight v))) 0 := (hasFDerivAt_id 0).prodMk hw
  have h3 : HasFDerivAt (fun q : ℝ × (Fin nx → ℝ) => h.h (l.sum + q.1) (L.rplus (march env d b l 0 (c 0)) q.2) j) D ((0 : ℝ), w 0) := by
    rw [w0]; exact hD
  have h4 := (h3.comp (0 : ℝ) h2).hasDerivAt
  have e3 : (D.comp ((ContinuousLinearMap.id ℝ ℝ).prod ((lin (groupSens L d b l 0 (c 0) 1)).comp ((ContinuousLinearMap.id ℝ ℝ).smulRight v)))) 1 =
      h.dt l.sum (march env d b l 0 (c 0)) j + (h.dx l.sum (march env d b l 0 (c 0))).mulVec ((groupSens L d b l 0 (c 0) 1).mulVec v) j := by
    rw [← e1, ← e2, ← map_add]
    simp [lin_apply]
  rw [e3] at h4
  refine h4.congr_of_eventuallyEq ?_
  filter_upwards [hev] with s hs
  rw [hs]
  rfl

/-- The steps of a schedule. -/
theorem Schedule.step_bounds {K : ℕ} {T dt : ℝ} {steps : ℕ → List ℝ} (hS : Schedule K (T / K) (min dt (T / K)) steps) (hT : 0 < T) (hdt : 0 < dt) (hK : 1 ≤ K)
    (k : ℕ) (hk : k ≤ K) : ∀ e ∈ steps k, 0 ≤ e ∧ e ≤ dt := by
  have hKF : (0 : ℝ) < K := by exact_mod_cast hK
  have hd : 0 < min dt (T / K) := lt_min hdt (div_pos hT hKF)
  have ht := hS.time hd (min_le_right _ _)
  induction k with
  | zero => rw [hS.zero]; simp
  | succ k ih =>
    obtain ⟨n, a1, -, -⟩ := hS.rule k (by omega)
    intro e he
    rw [a1, List.mem_append] at he
    rcases he with he | he
    · exact ih (by omega) e he
    · rw [List.eq_of_mem_replicate he]
      refine ⟨(lt_min hd ?_).le, (min_le_left _ _).trans (min_le_left _ _)⟩
      have h1 := (ht k (by omega)).2
      have h3 := min_le_right dt (T / K)
      push_cast
      linarith

attribute [local instance] Matrix.linftyOpNormedRing Matrix.linftyOpNormedAlgebra Matrix.linftyOpNormedAddCommGroup in
/-- **C49.** What the rows of the filter's program say about the true barrier condition: whenever a correction meets them up to `s`, the barrier
condition along the backup flow, for every motion that leaves the current state with the corrected velocity, holds up to `s` and a term that
goes to zero with the step length. -/
theorem asif_group_condition (hL : IsLie L mat hat) (env : Env X U ℝ nx nu) (he : GroupState L env) (d : Dyn X U ℝ nx nu) (b : Backup X U ℝ nx)
    (hd : HasGroupLoop L d b) (h : Barrier X ℝ nx) (p : Pbm X U ℝ nu) (prm : Prm ℝ) (steps : ℕ → List ℝ) (hT : 0 < p.T) (hdt : 0 < prm.dt)
    (hS : Schedule prm.K (p.T / prm.K) (min prm.dt (p.T / prm.K)) steps) (Q : Set X) (K M V a : ℝ) (hM : 0 ≤ M)
    (hV : ∀ t, ∀ x ∈ Q, ‖d.f x (b.bu t x)‖ ≤ V) (ha : ∀ t, ∀ x ∈ Q, ‖L.ad (d.f x (b.bu t x))‖ ≤ a)
    (hK : ∀ t, ∀ x ∈ Q, ‖b.dcl t x - L.ad (d.f x (b.bu t x))‖ ≤ K)
    (hLip : ∀ t, ∀ x ∈ Q, ∀ w, L.rplus x w ∈ Q → ‖sensGen L d b t (L.rplus x w) - sensGen L d b t x‖ ≤ M * ‖w‖)
    (hQ : ∀ k < prm.K, ∀ n ≤ (steps k).length, march env d b ((steps k).take n) 0 p.x0 ∈ Q)
    (mu : Fin nu → ℝ) (s : ℝ) (hs : Safe env d b h p prm steps mu s) (k : ℕ) (hk : k < prm.K) (j : Fin h.nh)
    (hh : HasBarrierD L h (steps k).sum (march env d b (steps k) 0 p.x0) j)
    (c : ℝ → X) (h0 : c 0 = p.x0) (hc : HasVel mat hat c (d.f p.x0 p.udes + (d.du p.x0 p.udes).mulVec mu) Set.univ 0) :
    ∃ D : ℝ, HasDerivAt (fun r : ℝ => h.h ((steps k).sum + r) (march env d b (steps k) 0 (c r)) j) D 0 ∧
      -s - ‖h.dx (steps k).sum (march env d b (steps k) 0 p.x0)‖ * (Real.exp (Real.exp (a * prm.dt) * K * (steps k).sum) *
          ((steps k).sum * (Real.exp (a * prm.dt) * (a * K / 2) + M * V) * prm.dt)) * ‖d.f p.x0 p.udes + (d.du p.x0 p.udes).mulVec mu‖ ≤
        D + prm.alpha * h.h (steps k).sum (march env d b (steps k) 0 p.x0) j := by
  rw [← h0] at hh hc ⊢
  simp only [← h0] at hQ
  refine ⟨_, asif_group_barrier hL env he d b hd h (steps k) hc j hh, ?_⟩
  set v := d.f (c 0) p.udes + (d.du (c 0) p.udes).mulVec mu with hv
  have hb := hs k hk j
  unfold barrier at hb
  rw [← h0, ← hv] at hb
  set E := Real.exp (Real.exp (a * prm.dt) * K * (steps k).sum) * ((steps k).sum * (Real.exp (a * prm.dt) * (a * K / 2) + M * V) * prm.dt) with hE
  have herr : ‖sens env d b (steps k) 0 (c 0) 1 - groupSens L d b (steps k) 0 (c 0) 1‖ ≤ E := by
    have hst := hS.step_bounds hT hdt (by omega) k hk.le
    have h1 := asif_group_sens_error hL env he d b Q K M V a prm.dt hM hV ha hK hLip (steps k) hst 0 (c 0) (hQ k hk) 1 1
    refine h1.trans ?_
    have hx : c 0 ∈ Q := by simpa [march] using hQ k hk 0 (by simp)
    have hK0 : 0 ≤ K := (norm_nonneg _).trans (hK 0 _ hx)
    have hV0 : 0 ≤ V := (norm_nonneg _).trans (hV 0 _ hx)
    have ha0 : 0 ≤ a := (norm_nonneg _).trans (ha 0 _ hx)
    have hs0 : 0 ≤ (steps k).sum := List.sum_nonneg fun e' h' => (hst e' h').1
    have h2 : ‖(1 : Matrix (Fin nx) (Fin nx) ℝ)‖ ≤ 1 := by
      rcases isEmpty_or_nonempty (Fin nx) with hn | hn
      · rw [Subsingleton.elim (1 : Matrix (Fin nx) (Fin nx) ℝ) 0, norm_zero]; exact zero_le_one
      · rw [norm_one]
    rw [hE, sub_self, norm_zero, zero_add]
    refine mul_le_mul_of_nonneg_left ?_ (Real.exp_pos _).le
    refine mul_le_of_le_one_right (by positivity) h2
  have hrow : ∀ w : Fin nx → ℝ, |(h.dx (steps k).sum (march env d b (steps k) 0 (c 0))).mulVec w j| ≤
      ‖h.dx (steps k).sum (march env d b (steps k) 0 (c 0))‖ * ‖w‖ := fun w =>
    (norm_le_pi_norm ((h.dx (steps k).sum (march env d b (steps k) 0 (c 0))).mulVec w) j).trans (Matrix.linfty_opNorm_mulVec _ _)
  have h3 := hrow ((sens env d b (steps k) 0 (c 0) 1 - groupSens L d b (steps k) 0 (c 0) 1).mulVec v)
  have h4 : ‖(sens env d b (steps k) 0 (c 0) 1 - groupSens L d b (steps k) 0 (c 0) 1).mulVec v‖ ≤ E * ‖v‖ :=
    (Matrix.linfty_opNorm_mulVec _ _).trans (mul_le_mul_of_nonneg_right herr (norm_nonneg _))
  have h5 := h3.trans (mul_le_mul_of_nonneg_left h4 (norm_nonneg _))
  rw [Matrix.sub_mulVec, Matrix.mulVec_sub, Pi.sub_apply] at h5
  have h6 := (abs_le.1 h5).2
  rw [← mul_assoc] at h6
  linarith

end Verif.ASIF
