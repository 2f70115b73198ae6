import Verif.Proofs.QPConv
import Verif.Proofs.QPInf
import Verif.Proofs.Displacement
import Mathlib.Analysis.InnerProductSpace.PiL2

/-! # QP solver: the steps of the iteration converge

Whatever the (convex) program, also without a solution, the difference of consecutive iterates has a limit, and the limit
has the properties of a certificate. -/

set_option linter.unusedSectionVars false

namespace Verif.QP

open Matrix Verif.QPSpec Filter Topology

/-! ### Sequences of reals -/

theorem tendsto_atTop_of_step {v : ℕ → ℝ} {V : ℝ} (hV : 0 < V) (h : Tendsto (fun k => v (k + 1) - v k) atTop (𝓝 V)) :
    Tendsto v atTop atTop := by
  have h1 : ∀ᶠ k in atTop, V / 2 < v (k + 1) - v k := h.eventually (lt_mem_nhds (by linarith))
  obtain ⟨N, hN⟩ := eventually_atTop.1 h1
  have h2 : ∀ k : ℕ, v N + k * (V / 2) ≤ v (k + N) := by
    intro k
    induction k with
    | zero => simp
    | succ k ih =>
      have := hN (k + N) (by omega)
      push_cast
      rw [show k + 1 + N = k + N + 1 by omega]
      linarith
  rw [← tendsto_add_atTop_iff_nat N]
  refine tendsto_atTop_mono h2 (tendsto_atTop_add_const_left _ _ ?_)
  exact tendsto_natCast_atTop_atTop.atTop_mul_const (by linarith)

theorem tendsto_atBot_of_step {v : ℕ → ℝ} {V : ℝ} (hV : V < 0) (h : Tendsto (fun k => v (k + 1) - v k) atTop (𝓝 V)) :
    Tendsto v atTop atBot := by
  have h1 : Tendsto (fun k => (fun k => -v k) (k + 1) - (fun k => -v k) k) atTop (𝓝 (-V)) := by
    refine h.neg.congr fun k => ?_
    simp only; ring
  have := tendsto_atTop_of_step (v := fun k => -v k) (neg_pos.2 hV) h1
  exact tendsto_neg_atTop_iff.1 this

/-- One row: `v = z + y / ρ` moves by `V` per step in the limit; then `z` or `y` does, and the other one stays. -/
theorem row_limit {l u : Ext ℝ} {r V : ℝ} (hr : 0 < r) {z y : ℕ → ℝ} (hlo : ∀ k, lower l (z k)) (hup : ∀ k, upper u (z k))
    (hcu : ∀ k, 0 < y k → u = .fin (z k)) (hcl : ∀ k, y k < 0 → l = .fin (z k))
    (hmono : ∀ k, 0 ≤ (z (k + 1) - z k) * (y (k + 1) - y k))
    (h : Tendsto (fun k => (z (k + 1) + r⁻¹ * y (k + 1)) - (z k + r⁻¹ * y k)) atTop (𝓝 V)) :
    ∃ ζ η, Tendsto (fun k => z (k + 1) - z k) atTop (𝓝 ζ) ∧ Tendsto (fun k => y (k + 1) - y k) atTop (𝓝 η) ∧
      V = ζ + r⁻¹ * η ∧ ζ * η = 0 ∧ (0 < η → ∃ b, u = .fin b ∧ ∀ᶠ k in atTop, z k = b) ∧
      (η < 0 → ∃ a, l = .fin a ∧ ∀ᶠ k in atTop, z k = a) ∧ (0 < ζ → u = .pos) ∧ (ζ < 0 → l = .neg) ∧
      (ζ ≠ 0 → ∀ᶠ k in atTop, y k = 0) := by
  have hri := inv_pos.2 hr
  -- it is enough to know one of the two limits
  have other : ∀ {ζ}, Tendsto (fun k => z (k + 1) - z k) atTop (𝓝 ζ) → Tendsto (fun k => y (k + 1) - y k) atTop (𝓝 (r * (V - ζ))) := by
    intro ζ hz
    refine ((h.sub hz).const_mul r).congr fun k => ?_
    field_simp
    ring
  have const : ∀ {f : ℕ → ℝ} {b}, (∀ᶠ k in atTop, f k = b) → Tendsto (fun k => f (k + 1) - f k) atTop (𝓝 0) := by
    intro f b hf
    refine tendsto_const_nhds.congr' ?_
    filter_upwards [hf, (tendsto_add_atTop_nat 1).eventually hf] with k h1 h2
    rw [h1, h2, sub_self]
  have yz : ∀ k, y k = r * ((z k + r⁻¹ * y k) - z k) := fun k => by field_simp; ring
  rcases lt_trichotomy V 0 with hV | hV | hV
  · have hv := tendsto_atBot_of_step (v := fun k => z k + r⁻¹ * y k) hV h
    by_cases hl : ∃ a, l = .fin a
    · obtain ⟨a, rfl⟩ := hl
      have hz : ∀ᶠ k in atTop, z k = a := by
        filter_upwards [hv.eventually_lt_atBot a] with k hk
        have h1 : a ≤ z k := hlo k
        have h2 : y k < 0 := by
          rw [yz k]
          exact mul_neg_of_pos_of_neg hr (by linarith)
        exact (Ext.fin.inj (hcl k h2)).symm
      refine ⟨0, r * (V - 0), const hz, other (const hz), by field_simp; ring, by simp, fun hp => ?_, fun _ => ⟨a, rfl, hz⟩,
        fun hp => absurd hp (lt_irrefl _), fun hp => absurd hp (lt_irrefl _), fun hp => absurd rfl hp⟩
      exact absurd hp (not_lt.2 (mul_nonpos_of_nonneg_of_nonpos hr.le (by linarith)))
    · have hl' : l = .neg := by
        cases hc : l with
        | neg => rfl
        | fin a => exact absurd ⟨a, hc⟩ hl
        | pos => have := hlo 0; rw [hc] at this; exact this.elim
      have hy0 : ∀ k, 0 ≤ y k := fun k => by
        by_contra hc
        exact hl ⟨_, hcl k (not_le.1 hc)⟩
      have hy : ∀ᶠ k in atTop, y k = 0 := by
        cases hc : u with
        | neg => have := hup 0; rw [hc] at this; exact this.elim
        | pos =>
          refine Eventually.of_forall fun k => le_antisymm (not_lt.1 fun hp => ?_) (hy0 k)
          have := hcu k hp; rw [hc] at this; cases this
        | fin b =>
          filter_upwards [hv.eventually_lt_atBot b] with k hk
          refine le_antisymm (not_lt.1 fun hp => ?_) (hy0 k)
          have h1 := hcu k hp; rw [hc] at h1
          have h2 := mul_pos hri hp
          rw [Ext.fin.inj h1] at hk
          linarith
      have hd := const hy
      have hz : Tendsto (fun k => z (k + 1) - z k) atTop (𝓝 V) := by
        have := h.sub (hd.const_mul r⁻¹)
        rw [mul_zero, sub_zero] at this
        exact this.congr fun k => by ring
      exact ⟨V, 0, hz, hd, by simp, by simp, fun hp => absurd hp (lt_irrefl _), fun hp => absurd hp (lt_irrefl _),
        fun hp => absurd hp (not_lt.2 hV.le), fun _ => hl', fun _ => hy⟩
  · have hz : Tendsto (fun k => z (k + 1) - z k) atTop (𝓝 0) := by
      refine squeeze_zero_norm (fun k => ?_) (by have := h.norm; rwa [hV, _root_.norm_zero] at this)
      rw [Real.norm_eq_abs, Real.norm_eq_abs, ← sq_le_sq]
      have := mul_nonneg hri.le (hmono k)
      nlinarith [sq_nonneg (r⁻¹ * (y (k + 1) - y k))]
    have hy := other hz
    rw [hV, sub_zero, mul_zero] at hy
    exact ⟨0, 0, hz, hy, by simp [hV], by simp, fun hp => absurd hp (lt_irrefl _), fun hp => absurd hp (lt_irrefl _),
        fun hp => absurd hp (lt_irrefl _), fun hp => absurd hp (lt_irrefl _), fun hp => absurd rfl hp⟩
  · have hv := tendsto_atTop_of_step (v := fun k => z k + r⁻¹ * y k) hV h
    by_cases hu : ∃ b, u = .fin b
    · obtain ⟨b, rfl⟩ := hu
      have hz : ∀ᶠ k in atTop, z k = b := by
        filter_upwards [hv.eventually_gt_atTop b] with k hk
        have h1 : z k ≤ b := hup k
        have h2 : 0 < y k := by
          rw [yz k]
          exact mul_pos hr (by linarith)
        exact (Ext.fin.inj (hcu k h2)).symm
      refine ⟨0, r * (V - 0), const hz, other (const hz), by field_simp; ring, by simp, fun _ => ⟨b, rfl, hz⟩, fun hp => ?_,
        fun hp => absurd hp (lt_irrefl _), fun hp => absurd hp (lt_irrefl _), fun hp => absurd rfl hp⟩
      exact absurd hp (not_lt.2 (mul_nonneg hr.le (by linarith)))
    · have hu' : u = .pos := by
        cases hc : u with
        | pos => rfl
        | fin b => exact absurd ⟨b, hc⟩ hu
        | neg => have := hup 0; rw [hc] at this; exact this.elim
      have hy0 : ∀ k, y k ≤ 0 := fun k => by
        by_contra hc
        exact hu ⟨_, hcu k (not_le.1 hc)⟩
      have hy : ∀ᶠ k in atTop, y k = 0 := by
        cases hc : l with
        | pos => have := hlo 0; rw [hc] at this; exact this.elim
        | neg =>
          refine Eventually.of_forall fun k => le_antisymm (hy0 k) (not_lt.1 fun hp => ?_)
          have := hcl k hp; rw [hc] at this; cases this
        | fin a =>
          filter_upwards [hv.eventually_gt_atTop a] with k hk
          refine le_antisymm (hy0 k) (not_lt.1 fun hp => ?_)
          have h1 := hcl k hp; rw [hc] at h1
          have h2 := mul_neg_of_pos_of_neg hri hp
          rw [Ext.fin.inj h1] at hk
          linarith
      have hd := const hy
      have hz : Tendsto (fun k => z (k + 1) - z k) atTop (𝓝 V) := by
        have := h.sub (hd.const_mul r⁻¹)
        rw [mul_zero, sub_zero] at this
        exact this.congr fun k => by ring
      exact ⟨V, 0, hz, hd, by simp, by simp, fun hp => absurd hp (lt_irrefl _), fun hp => absurd hp (lt_irrefl _),
        fun _ => hu', fun hp => absurd hp (not_lt.2 hV.le), fun _ => hy⟩

theorem psd_kernel {n : ℕ} {P : Matrix (Fin n) (Fin n) ℝ} (hP : Lin.PSD P) {v : Fin n → ℝ} (h : v ⬝ᵥ P *ᵥ v = 0) : P *ᵥ v = 0 := by
  set w := P *ᵥ v with hw
  have hsym : ∀ a b : Fin n → ℝ, a ⬝ᵥ P *ᵥ b = b ⬝ᵥ P *ᵥ a := fun a b => by
    rw [Matrix.dotProduct_mulVec, ← Matrix.mulVec_transpose, hP.1.eq, dotProduct_comm]
  have hb := hP.2 w
  set b := w ⬝ᵥ P *ᵥ w with hbdef
  have ha : 0 ≤ w ⬝ᵥ w := Finset.sum_nonneg fun i _ => mul_self_nonneg _
  set a := w ⬝ᵥ w with hadef
  have key := hP.2 (v - (a / (b + 1)) • w)
  rw [Matrix.mulVec_sub, Matrix.mulVec_smul, sub_dotProduct, dotProduct_sub, dotProduct_sub, dotProduct_smul, smul_dotProduct,
    smul_dotProduct, dotProduct_smul, h, hsym v w, ← hw, ← hadef, ← hbdef] at key
  simp only [smul_eq_mul] at key
  have h0 : a ≤ 0 := by
    by_contra hc
    have hap := not_le.1 hc
    have hb1 : 0 < b + 1 := by linarith
    have hT : 0 < a / (b + 1) := div_pos hap hb1
    set T := a / (b + 1)
    have hTb : T * b ≤ a := by
      have : T * (b + 1) = a := div_mul_cancel₀ _ hb1.ne'
      linarith
    have : T * (T * b) ≤ T * a := mul_le_mul_of_nonneg_left hTb hT.le
    have := mul_pos hT hap
    linarith
  funext i
  have h1 := (Finset.sum_eq_zero_iff_of_nonneg fun i _ => mul_self_nonneg (w i)).1 (le_antisymm h0 ha) i (Finset.mem_univ i)
  exact mul_self_eq_zero.1 h1

/-! ### The iteration as an averaged map of a Euclidean space -/

section

variable {n m : ℕ} {alpha sigma : ℝ} {p : Pbm ℝ n m} {rho : Fin m → ℝ} {slv : (Fin n ⊕ Fin m → ℝ) → (Fin n ⊕ Fin m → ℝ)}
  {t : ℕ → It ℝ n m}

/-- The coordinates in which the iteration is averaged. -/
noncomputable def emb (sigma : ℝ) (rho : Fin m → ℝ) (a : It ℝ n m) : EuclideanSpace ℝ (Fin n ⊕ Fin m) :=
  WithLp.toLp 2 (Sum.elim (fun j => √sigma * a.x j) (fun i => √(rho i) * (a.z i + (rho i)⁻¹ * a.y i)))

theorem emb_dist (hsig : 0 ≤ sigma) (hr : ∀ i, 0 < rho i) (a b : It ℝ n m) :
    ‖emb sigma rho a - emb sigma rho b‖ ^ 2 = dist2 sigma rho a b := by
  rw [EuclideanSpace.real_norm_sq_eq, Fintype.sum_sum_type]
  unfold dist2
  congr 1
  · refine Finset.sum_congr rfl fun j _ => ?_
    simp only [emb, PiLp.sub_apply, Sum.elim_inl]
    rw [← mul_sub, mul_pow, Real.sq_sqrt hsig]
  · refine Finset.sum_congr rfl fun i _ => ?_
    simp only [emb, PiLp.sub_apply, Sum.elim_inr]
    rw [← mul_sub, mul_pow, Real.sq_sqrt (hr i).le]
    ring

theorem emb_step (ha : alpha ≠ 0) (hsig : 0 ≤ sigma) (hr : ∀ i, 0 < rho i) (a b : It ℝ n m) :
    ‖(emb sigma rho (step alpha sigma p Scaling.unit rho slv a) - emb sigma rho a) -
        (emb sigma rho (step alpha sigma p Scaling.unit rho slv b) - emb sigma rho b)‖ ^ 2 =
      alpha ^ 2 * (∑ j, sigma * ((aux sigma p rho slv a (.inl j) - a.x j) - (aux sigma p rho slv b (.inl j) - b.x j)) ^ 2 +
          ∑ i, rho i * ((rho i)⁻¹ * ((aux sigma p rho slv a (.inr i) - a.y i) - (aux sigma p rho slv b (.inr i) - b.y i))) ^ 2) := by
  rw [EuclideanSpace.real_norm_sq_eq, Fintype.sum_sum_type, mul_add, Finset.mul_sum, Finset.mul_sum]
  congr 1
  · refine Finset.sum_congr rfl fun j _ => ?_
    simp only [emb, PiLp.sub_apply, Sum.elim_inl]
    rw [(step_unit a).1, (step_unit b).1]
    rw [← mul_sub, ← mul_sub, ← mul_sub, mul_pow, Real.sq_sqrt hsig]
    ring
  · refine Finset.sum_congr rfl fun i _ => ?_
    simp only [emb, PiLp.sub_apply, Sum.elim_inr]
    rw [step_v hr a i, step_v hr b i, ← mul_sub, ← mul_sub, ← mul_sub, mul_pow, Real.sq_sqrt (hr i).le]
    ring

/-- The steps of `x` and of `z + y / rho` converge. -/
theorem steps_limit (hP : Lin.PSD p.P) (ha : 0 < alpha) (ha' : alpha < 2) (hsig : 0 < sigma) (hr : ∀ i, 0 < rho i)
    (hslv : ∀ b, symUpper (kkt sigma p Scaling.unit rho) *ᵥ slv b = b)
    (ht : ∀ k, t (k + 1) = step alpha sigma p Scaling.unit rho slv (t k)) (hg : ∀ k, ZBox p (t k)) :
    ∃ (X : Fin n → ℝ) (V : Fin m → ℝ), (∀ j, Tendsto (fun k => (t (k + 1)).x j - (t k).x j) atTop (𝓝 (X j))) ∧
      ∀ i, Tendsto (fun k => ((t (k + 1)).z i + (rho i)⁻¹ * (t (k + 1)).y i) - ((t k).z i + (rho i)⁻¹ * (t k).y i)) atTop (𝓝 (V i)) := by
  obtain ⟨v, hv⟩ := Displacement.steps_converge (a := fun k => emb sigma rho (t k)) (c := (2 - alpha) / alpha)
    (div_pos (by linarith) ha) fun k l => by
      have h1 := step_contract hP ha.le hr hslv (hg k) (hg l)
      have h2 := emb_step (p := p) (slv := slv) ha.ne' hsig.le hr (t k) (t l)
      rw [emb_dist hsig.le hr, emb_dist hsig.le hr, ht, ht, h2]
      refine le_trans (le_of_eq ?_) h1
      congr 1
      field_simp
  have hco : ∀ c, Tendsto (fun k => (emb sigma rho (t (k + 1)) - emb sigma rho (t k)) c) atTop (𝓝 (v c)) := fun c =>
    ((EuclideanSpace.proj (𝕜 := ℝ) c).continuous.tendsto v).comp hv
  refine ⟨fun j => (√sigma)⁻¹ * v (.inl j), fun i => (√(rho i))⁻¹ * v (.inr i), fun j => ?_, fun i => ?_⟩
  · refine ((hco (.inl j)).const_mul _).congr fun k => ?_
    simp only [emb, PiLp.sub_apply, Sum.elim_inl]
    rw [← mul_sub, inv_mul_cancel_left₀ (Real.sqrt_pos.2 hsig).ne']
  · refine ((hco (.inr i)).const_mul _).congr fun k => ?_
    simp only [emb, PiLp.sub_apply, Sum.elim_inr]
    rw [← mul_sub, inv_mul_cancel_left₀ (Real.sqrt_pos.2 (hr i)).ne']

theorem tendsto_mulVec {a b : ℕ} (M : Matrix (Fin a) (Fin b) ℝ) {v : ℕ → Fin b → ℝ} {w : Fin b → ℝ}
    (h : ∀ j, Tendsto (fun k => v k j) atTop (𝓝 (w j))) (i : Fin a) : Tendsto (fun k => (M *ᵥ v k) i) atTop (𝓝 ((M *ᵥ w) i)) := by
  simp only [Matrix.mulVec, dotProduct]
  exact tendsto_finset_sum _ fun j _ => (h j).const_mul _

theorem tendsto_dot {a : ℕ} {v v' : ℕ → Fin a → ℝ} {w w' : Fin a → ℝ} (h : ∀ j, Tendsto (fun k => v k j) atTop (𝓝 (w j)))
    (h' : ∀ j, Tendsto (fun k => v' k j) atTop (𝓝 (w' j))) : Tendsto (fun k => v k ⬝ᵥ v' k) atTop (𝓝 (w ⬝ᵥ w')) := by
  simp only [dotProduct]
  exact tendsto_finset_sum _ fun j _ => (h j).mul (h' j)

/-- The limits of the steps, with everything that is known of them. -/
theorem run_limit (hP : Lin.PSD p.P) (ha : 0 < alpha) (ha' : alpha < 2) (hsig : 0 < sigma) (hr : ∀ i, 0 < rho i)
    (hslv : ∀ b, symUpper (kkt sigma p Scaling.unit rho) *ᵥ slv b = b)
    (ht : ∀ k, t (k + 1) = step alpha sigma p Scaling.unit rho slv (t k)) (hg : ∀ k, ZBox p (t k)) :
    ∃ (X : Fin n → ℝ) (Y : Fin m → ℝ), (∀ j, Tendsto (fun k => (t (k + 1)).x j - (t k).x j) atTop (𝓝 (X j))) ∧
      (∀ i, Tendsto (fun k => (t (k + 1)).y i - (t k).y i) atTop (𝓝 (Y i))) ∧
      p.P *ᵥ X = 0 ∧ p.Aᵀ *ᵥ Y = 0 ∧
      (∀ i, (p.u i ≠ .pos → (p.A *ᵥ X) i ≤ 0) ∧ (p.l i ≠ .neg → 0 ≤ (p.A *ᵥ X) i)) ∧
      (∀ i, (p.u i = .pos → Y i ≤ 0) ∧ (p.l i = .neg → 0 ≤ Y i)) ∧
      p.q ⬝ᵥ X = -(sigma * (X ⬝ᵥ X) + ∑ i, rho i * (p.A *ᵥ X) i ^ 2) / alpha ∧
      support p Y = -(∑ i, (rho i)⁻¹ * Y i ^ 2) / alpha ∧
      (∀ i, Tendsto (fun k => (p.A *ᵥ (t k).x) i - (t k).z i) atTop (𝓝 ((rho i)⁻¹ * Y i / alpha))) ∧
      (X = 0 → ∀ j, Tendsto (fun k => (p.P *ᵥ (t k).x) j + p.q j + (p.Aᵀ *ᵥ (t k).y) j) atTop (𝓝 0)) := by
  obtain ⟨X, V, hX, hV⟩ := steps_limit hP ha ha' hsig hr hslv ht hg
  have hrow := fun i => row_limit (hr i) (z := fun k => (t k).z i) (y := fun k => (t k).y i) (fun k => ((hg k).1 i).1)
    (fun k => ((hg k).1 i).2) (fun k => ((hg k).2 i).1) (fun k => ((hg k).2 i).2) (fun k => good_mono (hg (k + 1)) (hg k) i) (hV i)
  choose Z Y hZ hY hVZ hZY hYp hYn hZp hZn hyz using hrow
  -- the solution of the linear system
  have hxt : ∀ k j, aux sigma p rho slv (t k) (.inl j) = (t k).x j + alpha⁻¹ * ((t (k + 1)).x j - (t k).x j) := fun k j => by
    rw [ht, (step_unit (t k)).1]
    field_simp
    ring
  have hnt : ∀ k i, aux sigma p rho slv (t k) (.inr i) = (t k).y i +
      alpha⁻¹ * (rho i * (((t (k + 1)).z i + (rho i)⁻¹ * (t (k + 1)).y i) - ((t k).z i + (rho i)⁻¹ * (t k).y i))) := fun k i => by
    rw [ht, step_v hr (t k) i]
    have := (hr i).ne'
    field_simp
    ring
  have e1 := fun k j => aux_eq1 hP.1 hslv (t k) j
  have e2 := fun k i => aux_eq2 hslv (t k) i
  have shift : ∀ {f : ℕ → ℝ} {c : ℝ}, Tendsto f atTop (𝓝 c) → Tendsto (fun k => f (k + 1) - f k) atTop (𝓝 0) := by
    intro f c hf
    have := (hf.comp (tendsto_add_atTop_nat 1)).sub hf
    rwa [sub_self] at this
  have dxt : ∀ j, Tendsto (fun k => aux sigma p rho slv (t (k + 1)) (.inl j) - aux sigma p rho slv (t k) (.inl j)) atTop (𝓝 (X j)) := fun j => by
    have := (hX j).add ((shift (hX j)).const_mul alpha⁻¹)
    rw [mul_zero, add_zero] at this
    refine this.congr fun k => ?_
    rw [hxt, hxt]; ring
  have dnt : ∀ i, Tendsto (fun k => aux sigma p rho slv (t (k + 1)) (.inr i) - aux sigma p rho slv (t k) (.inr i)) atTop (𝓝 (Y i)) := fun i => by
    have := (hY i).add (((shift (hV i)).const_mul (rho i)).const_mul alpha⁻¹)
    rw [mul_zero, mul_zero, add_zero] at this
    refine this.congr fun k => ?_
    rw [hnt, hnt]; ring
  have subP : ∀ {a b c d : ℕ} (M : Matrix (Fin a) (Fin b) ℝ) (f : Fin b → Fin n ⊕ Fin m) (i : Fin a),
      (M *ᵥ fun k => aux sigma p rho slv (t c) (f k) - aux sigma p rho slv (t d) (f k)) i =
        (M *ᵥ fun k => aux sigma p rho slv (t c) (f k)) i - (M *ᵥ fun k => aux sigma p rho slv (t d) (f k)) i := by
    intro a b c d M f i
    have : (fun k => aux sigma p rho slv (t c) (f k) - aux sigma p rho slv (t d) (f k)) =
      (fun k => aux sigma p rho slv (t c) (f k)) - fun k => aux sigma p rho slv (t d) (f k) := rfl
    rw [this, Matrix.mulVec_sub]
    rfl
  have f1 : ∀ j, (p.P *ᵥ X) j + (p.Aᵀ *ᵥ Y) j = 0 := fun j => by
    have l1 := ((tendsto_mulVec p.P dxt j).add ((dxt j).const_mul sigma)).add (tendsto_mulVec p.Aᵀ dnt j)
    have l2 := tendsto_nhds_unique (l1.congr fun k => ?_) ((hX j).const_mul sigma)
    · linarith
    · rw [subP, subP]
      linear_combination e1 (k + 1) j - e1 k j
  have f2 : ∀ i, (p.A *ᵥ X) i = Z i := fun i => by
    have l1 := (tendsto_mulVec p.A dxt i).sub ((dnt i).const_mul (rho i)⁻¹)
    have l2 := tendsto_nhds_unique (l1.congr fun k => ?_) ((hZ i).sub ((hY i).const_mul (rho i)⁻¹))
    · linarith
    · rw [subP]
      linear_combination e2 (k + 1) i - e2 k i
  have tr : ∀ (x : Fin n → ℝ) (y : Fin m → ℝ), x ⬝ᵥ p.Aᵀ *ᵥ y = (p.A *ᵥ x) ⬝ᵥ y := fun x y => by
    rw [Matrix.dotProduct_mulVec, Matrix.vecMul_transpose]
  have hZ0 : Z ⬝ᵥ Y = 0 := Finset.sum_eq_zero fun i _ => hZY i
  have hAX : p.A *ᵥ X = Z := funext f2
  have hPX : p.P *ᵥ X = 0 := by
    refine psd_kernel hP ?_
    have : X ⬝ᵥ (p.P *ᵥ X + p.Aᵀ *ᵥ Y) = 0 := by
      rw [show p.P *ᵥ X + p.Aᵀ *ᵥ Y = 0 from funext f1, dotProduct_zero]
    rw [dotProduct_add, tr, hAX, hZ0, add_zero] at this
    exact this
  have hAY : p.Aᵀ *ᵥ Y = 0 := funext fun j => by
    have := f1 j
    rw [hPX] at this
    simpa using this
  have pri : ∀ i, Tendsto (fun k => (p.A *ᵥ (t k).x) i - (t k).z i) atTop (𝓝 ((rho i)⁻¹ * Y i / alpha)) := fun i => by
    have l1 := ((hV i).sub (tendsto_mulVec p.A hX i)).const_mul alpha⁻¹
    have l2 : alpha⁻¹ * (V i - (p.A *ᵥ X) i) = (rho i)⁻¹ * Y i / alpha := by rw [f2, hVZ]; ring
    rw [l2] at l1
    refine l1.congr fun k => ?_
    have h3 := e2 k i
    have h4 : (fun j => aux sigma p rho slv (t k) (.inl j)) = (t k).x + alpha⁻¹ • fun j => (t (k + 1)).x j - (t k).x j := by
      funext j; rw [hxt]; rfl
    rw [h4, Matrix.mulVec_add, Matrix.mulVec_smul, hnt] at h3
    simp only [Pi.add_apply, Pi.smul_apply, smul_eq_mul] at h3
    have h5 : (rho i)⁻¹ * (alpha⁻¹ * (rho i * (((t (k + 1)).z i + (rho i)⁻¹ * (t (k + 1)).y i) - ((t k).z i + (rho i)⁻¹ * (t k).y i)))) =
        alpha⁻¹ * (((t (k + 1)).z i + (rho i)⁻¹ * (t (k + 1)).y i) - ((t k).z i + (rho i)⁻¹ * (t k).y i)) := by
      have := (hr i).ne'
      field_simp
    rw [mul_add, h5] at h3
    linear_combination -h3
  refine ⟨X, Y, hX, hY, hPX, hAY, fun i => ⟨fun hu => ?_, fun hl => ?_⟩, fun i => ⟨fun hu => ?_, fun hl => ?_⟩, ?_, ?_, pri, ?_⟩
  · rw [f2]; exact not_lt.1 fun hc => hu (hZp i hc)
  · rw [f2]; exact not_lt.1 fun hc => hl (hZn i hc)
  · refine not_lt.1 fun hc => ?_
    obtain ⟨b, hb, -⟩ := hYp i hc
    rw [hu] at hb; cases hb
  · refine not_lt.1 fun hc => ?_
    obtain ⟨b, hb, -⟩ := hYn i hc
    rw [hl] at hb; cases hb
  · -- the linear cost
    have hq : ∀ k, p.q ⬝ᵥ X = -(alpha⁻¹ * (sigma * ((fun j => (t (k + 1)).x j - (t k).x j) ⬝ᵥ X)) +
        ∑ i, Z i * aux sigma p rho slv (t k) (.inr i)) := fun k => by
      have h1 : X ⬝ᵥ (p.P *ᵥ fun j => aux sigma p rho slv (t k) (.inl j)) = 0 := by
        rw [Matrix.dotProduct_mulVec, ← Matrix.mulVec_transpose, hP.1.eq, hPX, zero_dotProduct]
      have h2 := tr X fun i => aux sigma p rho slv (t k) (.inr i)
      rw [hAX] at h2
      simp only [dotProduct] at h1 h2 ⊢
      have h3 : ∑ j, X j * ((p.P *ᵥ fun j => aux sigma p rho slv (t k) (.inl j)) j + sigma * aux sigma p rho slv (t k) (.inl j) +
          (p.Aᵀ *ᵥ fun i => aux sigma p rho slv (t k) (.inr i)) j - (sigma * (t k).x j - p.q j)) = 0 :=
        Finset.sum_eq_zero fun j _ => by rw [e1 k j, sub_self, mul_zero]
      have h4 : ∀ j, X j * ((p.P *ᵥ fun j => aux sigma p rho slv (t k) (.inl j)) j + sigma * aux sigma p rho slv (t k) (.inl j) +
          (p.Aᵀ *ᵥ fun i => aux sigma p rho slv (t k) (.inr i)) j - (sigma * (t k).x j - p.q j)) =
          X j * (p.P *ᵥ fun j => aux sigma p rho slv (t k) (.inl j)) j + X j * (p.Aᵀ *ᵥ fun i => aux sigma p rho slv (t k) (.inr i)) j +
          p.q j * X j + alpha⁻¹ * (sigma * (((t (k + 1)).x j - (t k).x j) * X j)) := fun j => by rw [hxt]; ring
      rw [Finset.sum_congr rfl fun j _ => h4 j] at h3
      simp only [Finset.sum_add_distrib, ← Finset.mul_sum] at h3
      linarith
    have l0 : ∀ i, Tendsto (fun k => Z i * aux sigma p rho slv (t k) (.inr i)) atTop (𝓝 (alpha⁻¹ * (rho i * Z i ^ 2))) := fun i => by
      by_cases hz : Z i = 0
      · simp [hz]
      · have hy0 : Y i = 0 := (mul_eq_zero.1 (hZY i)).resolve_left hz
        have l1 := (((hV i).const_mul (rho i)).const_mul alpha⁻¹).const_mul (Z i)
        have : Z i * (alpha⁻¹ * (rho i * V i)) = alpha⁻¹ * (rho i * Z i ^ 2) := by rw [hVZ, hy0]; ring
        rw [this] at l1
        refine l1.congr' ?_
        filter_upwards [hyz i hz] with k hk
        rw [hnt, hk, zero_add]
    have l1 := (((tendsto_dot (w' := X) hX fun j => tendsto_const_nhds).const_mul sigma).const_mul alpha⁻¹).add
      (tendsto_finset_sum Finset.univ fun i _ => l0 i)
    have l2 := tendsto_nhds_unique (tendsto_const_nhds.congr fun k => hq k) l1.neg
    rw [l2, hAX, ← Finset.mul_sum]
    ring
  · -- the support value
    have h1 : ∀ k, ∑ i, Y i * (t k).z i = -(alpha⁻¹ * ∑ i, Y i *
        (((t (k + 1)).z i + (rho i)⁻¹ * (t (k + 1)).y i) - ((t k).z i + (rho i)⁻¹ * (t k).y i))) := fun k => by
      have h2 : Y ⬝ᵥ (p.A *ᵥ fun j => aux sigma p rho slv (t k) (.inl j)) = 0 := by
        rw [dotProduct_comm, ← tr, hAY, dotProduct_zero]
      have h3 : ∀ i, Y i * (t k).z i = Y i * (p.A *ᵥ fun j => aux sigma p rho slv (t k) (.inl j)) i - alpha⁻¹ * (Y i *
          (((t (k + 1)).z i + (rho i)⁻¹ * (t (k + 1)).y i) - ((t k).z i + (rho i)⁻¹ * (t k).y i))) := fun i => by
        have h4 := e2 k i
        rw [hnt k i] at h4
        have h5 := (hr i).ne'
        have h6 : (p.A *ᵥ fun j => aux sigma p rho slv (t k) (.inl j)) i = (t k).z i + alpha⁻¹ *
          (((t (k + 1)).z i + (rho i)⁻¹ * (t (k + 1)).y i) - ((t k).z i + (rho i)⁻¹ * (t k).y i)) := by
          have h7 : (rho i)⁻¹ * (alpha⁻¹ * (rho i * (((t (k + 1)).z i + (rho i)⁻¹ * (t (k + 1)).y i) - ((t k).z i + (rho i)⁻¹ * (t k).y i)))) =
            alpha⁻¹ * (((t (k + 1)).z i + (rho i)⁻¹ * (t (k + 1)).y i) - ((t k).z i + (rho i)⁻¹ * (t k).y i)) := by field_simp
          rw [mul_add, h7] at h4
          linear_combination h4
        rw [h6]; ring
      rw [Finset.sum_congr rfl fun i _ => h3 i, Finset.sum_sub_distrib, ← Finset.mul_sum]
      have h8 : ∑ i, Y i * (p.A *ᵥ fun j => aux sigma p rho slv (t k) (.inl j)) i = 0 := h2
      rw [h8, zero_sub]
    have l1 := ((tendsto_finset_sum Finset.univ fun i _ => (hV i).const_mul (Y i)).const_mul alpha⁻¹).neg
    have l2 := l1.congr fun k => (h1 k).symm
    have l3 : ∀ᶠ k in atTop, ∑ i, Y i * (t k).z i = support p Y := by
      have : ∀ᶠ k in atTop, ∀ i, Y i * (t k).z i = supp1 p Y i := by
        rw [eventually_all]
        intro i
        unfold supp1
        rcases lt_trichotomy (Y i) 0 with h | h | h
        · obtain ⟨a, hl, hz⟩ := hYn i h
          filter_upwards [hz] with k hk
          rw [hk, hl, max_eq_left h.le, min_eq_right h.le]
          cases p.u i <;> simp <;> ring
        · refine Eventually.of_forall fun k => ?_
          rw [h]
          cases p.u i <;> cases p.l i <;> simp
        · obtain ⟨b, hu, hz⟩ := hYp i h
          filter_upwards [hz] with k hk
          rw [hk, hu, max_eq_right h.le, min_eq_left h.le]
          cases p.l i <;> simp <;> ring
      filter_upwards [this] with k hk
      change _ = ∑ i, supp1 p Y i
      exact Finset.sum_congr rfl fun i _ => hk i
    have l4 := tendsto_nhds_unique (tendsto_const_nhds.congr' (l3.mono fun _ h => h.symm)) l2
    rw [l4, neg_div, div_eq_inv_mul]
    congr 2
    refine Finset.sum_congr rfl fun i _ => ?_
    rw [hVZ]
    linear_combination hZY i
  · -- the dual residual
    intro hX0 j
    have hZ' : Z = 0 := by rw [← hAX, hX0, Matrix.mulVec_zero]
    have l1 : Tendsto (fun k => -(alpha⁻¹ * ((p.P *ᵥ fun j => (t (k + 1)).x j - (t k).x j) j + sigma * ((t (k + 1)).x j - (t k).x j) +
        (p.Aᵀ *ᵥ fun i => rho i * (((t (k + 1)).z i + (rho i)⁻¹ * (t (k + 1)).y i) - ((t k).z i + (rho i)⁻¹ * (t k).y i))) j))) atTop
        (𝓝 (-(alpha⁻¹ * ((p.P *ᵥ X) j + sigma * X j + (p.Aᵀ *ᵥ fun i => rho i * V i) j)))) :=
      ((((tendsto_mulVec p.P hX j).add ((hX j).const_mul sigma)).add
        (tendsto_mulVec p.Aᵀ (fun i => (hV i).const_mul (rho i)) j)).const_mul alpha⁻¹).neg
    have hYV : (fun i => rho i * V i) = Y := funext fun i => by
      rw [hVZ, hZ', Pi.zero_apply, zero_add, mul_inv_cancel_left₀ (hr i).ne']
    rw [hYV, hAY, hPX, hX0] at l1
    simp only [Pi.zero_apply, mul_zero, add_zero, neg_zero] at l1
    refine l1.congr fun k => ?_
    have h3 := e1 k j
    have h4 : (fun j => aux sigma p rho slv (t k) (.inl j)) = (t k).x + alpha⁻¹ • fun j => (t (k + 1)).x j - (t k).x j := by
      funext j; rw [hxt]; rfl
    have h5 : (fun i => aux sigma p rho slv (t k) (.inr i)) = (t k).y + alpha⁻¹ • fun i =>
        rho i * (((t (k + 1)).z i + (rho i)⁻¹ * (t (k + 1)).y i) - ((t k).z i + (rho i)⁻¹ * (t k).y i)) := by
      funext i; rw [hnt]; rfl
    rw [h4, h5, Matrix.mulVec_add, Matrix.mulVec_smul, Matrix.mulVec_add, Matrix.mulVec_smul, hxt] at h3
    simp only [Pi.add_apply, Pi.smul_apply, smul_eq_mul] at h3
    linear_combination -h3

end

end Verif.QP
