import Verif.Props.ASIF
import Mathlib.Data.Fintype.Lattice

/-!
# The relaxed barrier conditions (C108)

The program of the filter relaxes all barrier conditions by one slack variable with a quadratic cost (asif_func.hpp:182-197). A quadratic
penalty is never exact.
-/

set_option linter.unusedSectionVars false

namespace Verif.ASIF

open Verif.QPSpec
open Verif.QP (Ext Status)

variable {X U F : Type*} {nx nu : ℕ} [Field F] [LinearOrder F] [IsStrictOrderedRing F]

theorem lower_mix {a : Ext F} {x y t : F} (hx : lower a x) (hy : lower a y) (h0 : 0 ≤ t) (h1 : t ≤ 1) : lower a ((1 - t) * x + t * y) := by
  cases a <;> simp only [lower] at *
  nlinarith

theorem upper_mix {a : Ext F} {x y t : F} (hx : upper a x) (hy : upper a y) (h0 : 0 ≤ t) (h1 : t ≤ 1) : upper a ((1 - t) * x + t * y) := by
  cases a <;> simp only [upper] at *
  nlinarith

theorem feasible_mix {n m : ℕ} (p : QP.Pbm F n m) {x y : Fin n → F} (hx : Feasible p x) (hy : Feasible p y) {t : F} (h0 : 0 ≤ t) (h1 : t ≤ 1) :
    Feasible p ((1 - t) • x + t • y) := by
  intro i
  have e : (p.A.mulVec ((1 - t) • x + t • y)) i = (1 - t) * (p.A.mulVec x) i + t * (p.A.mulVec y) i := by
    rw [Matrix.mulVec_add, Matrix.mulVec_smul, Matrix.mulVec_smul]
    simp
  rw [e]
  exact ⟨lower_mix (hx i).1 (hy i).1 h0 h1, upper_mix (hx i).2 (hy i).2 h0 h1⟩

/-- An inequality for all short steps holds to first order. -/
theorem first_order {a c : F} (hc : 0 ≤ c) (h : ∀ t, 0 < t → t ≤ 1 → 0 ≤ a * t + c * t ^ 2) : 0 ≤ a := by
  by_contra ha
  push Not at ha
  have hd : 0 < -a + c := by linarith
  have h1 := h (-a / (-a + c)) (div_pos (by linarith) hd) ((div_le_one hd).2 (by linarith))
  have h2 : a * (-a / (-a + c)) + c * (-a / (-a + c)) ^ 2 = a * (-a / (-a + c)) * (-a / (-a + c)) := by
    field_simp
    ring
  rw [h2] at h1
  have h3 : 0 < -a / (-a + c) := div_pos (by linarith) hd
  nlinarith [mul_pos h3 h3]

theorem exists_pos_le {ι : Type*} [Finite ι] (f : ι → F) (hf : ∀ i, 0 < f i) : ∃ e > 0, ∀ i, e ≤ f i := by
  rcases isEmpty_or_nonempty ι with h | h
  · exact ⟨1, one_pos, fun i => (IsEmpty.false i).elim⟩
  · obtain ⟨i, hi⟩ := Finite.exists_min f
    exact ⟨f i, hf i, hi⟩

section

variable (env : Env X U F nx nu) (d : Dyn X U F nx nu) (b : Backup X U F nx) (h : Barrier X F nx) (p : Pbm X U F nu) (prm : Prm F)

/-- **C108, the price of the slack.** Let the desired input be admissible and let it violate the barrier conditions by at most `s0`. At the
minimum, the weighted correction is paid for by the slack: it is at most `relax * slack * (s0 - slack)`. -/
theorem asif_slack_price (hr : 0 ≤ prm.relax) (hW : ∀ i, 0 ≤ p.W i) (steps : ℕ → List F)
    (hS : Schedule prm.K (p.T / prm.K) (min prm.dt (p.T / prm.K)) steps) (fuel : ℕ) (qp : DQP F)
    (hq : toQP env d b h p prm fuel = some qp) (hu : InBounds env p.ulim p.udes) (v : Fin (nu + 1) → F)
    (hv : Minimiser (qp.pbm (nu + 1) (prm.K * h.nh + p.ulim.rows + 1)) v) (s0 : F) (h0 : 0 ≤ s0) (hs : Safe env d b h p prm steps 0 s0) :
    ∑ i, p.W i * corr v i ^ 2 ≤ prm.relax * slack v * (s0 - slack v) := by
  have hp := (asif_program env d b h p prm steps hS fuel qp hq).2
  set z : Fin (nu + 1) → F := Fin.snoc (α := fun _ => F) 0 s0 with hz
  have cz : corr z = 0 := by funext i; simp [corr, hz]
  have sz : slack z = s0 := by simp [slack, hz]
  have fz : Feasible (qp.pbm (nu + 1) (prm.K * h.nh + p.ulim.rows + 1)) z := by
    rw [(hp z).1, cz, sz, add_zero]
    exact ⟨hs, hu, h0⟩
  have hM : 0 ≤ ∑ i, p.W i * corr v i ^ 2 := Finset.sum_nonneg fun i _ => mul_nonneg (hW i) (sq_nonneg _)
  have key : 0 ≤ prm.relax * slack v * (s0 - slack v) - ∑ i, p.W i * corr v i ^ 2 := by
    have h2 : 0 ≤ 2 * (prm.relax * slack v * (s0 - slack v) - ∑ i, p.W i * corr v i ^ 2) := by
      refine first_order (c := ∑ i, p.W i * corr v i ^ 2 + prm.relax * (s0 - slack v) ^ 2) (add_nonneg hM (mul_nonneg hr (sq_nonneg _)))
        fun t ht0 ht1 => ?_
      have h3 := hv.2 _ (feasible_mix _ hv.1 fz ht0.le ht1)
      rw [(hp v).2, (hp _).2] at h3
      have e1 : corr ((1 - t) • v + t • z) = (1 - t) • corr v := by
        funext i
        have : z i.castSucc = 0 := congrFun cz i
        simp [corr, this]
      have e2 : slack ((1 - t) • v + t • z) = (1 - t) * slack v + t * s0 := by
        rw [← sz]; rfl
      rw [e1, e2] at h3
      have e3 : ∑ i, p.W i * ((1 - t) • corr v) i ^ 2 = (1 - t) ^ 2 * ∑ i, p.W i * corr v i ^ 2 := by
        rw [Finset.mul_sum]
        refine Finset.sum_congr rfl fun i _ => ?_
        simp only [Pi.smul_apply, smul_eq_mul]
        ring
      rw [e3] at h3
      nlinarith
    linarith
  linarith

/-- **C108, the filter never enforces the barrier conditions when it has to.** Let the desired input be admissible. The corrected input satisfies
the barrier conditions only if the desired input does, and then it is the desired input; in all other cases it violates some of them, even if
another admissible input satisfies all. The worst violation is exactly the slack. -/
theorem asif_never_enforces (hr : 0 < prm.relax) (hW : ∀ i, 0 < p.W i) (steps : ℕ → List F)
    (hS : Schedule prm.K (p.T / prm.K) (min prm.dt (p.T / prm.K)) steps) (fuel : ℕ) (qp : DQP F)
    (hq : toQP env d b h p prm fuel = some qp) (hu : InBounds env p.ulim p.udes) (v : Fin (nu + 1) → F)
    (hv : Minimiser (qp.pbm (nu + 1) (prm.K * h.nh + p.ulim.rows + 1)) v) :
    (Safe env d b h p prm steps (corr v) 0 ↔ Safe env d b h p prm steps 0 0) ∧ (Safe env d b h p prm steps 0 0 ↔ v = 0) ∧
    (v ≠ 0 → 0 < slack v ∧ ∃ k < prm.K, ∃ j, barrier d h prm.alpha p.x0 p.udes (steps k).sum (march env d b (steps k) 0 p.x0)
      (sens env d b (steps k) 0 p.x0 1) (corr v) j = -slack v) := by
  have hp := (asif_program env d b h p prm steps hS fuel qp hq).2
  obtain ⟨f1, f2, f3⟩ := (hp v).1.1 hv.1
  have lower_slack : ∀ s, 0 ≤ s → Safe env d b h p prm steps (corr v) s → slack v ≤ s := by
    intro s h0 hs
    have c1 : corr (Fin.snoc (α := fun _ => F) (corr v) s) = corr v := by funext i; simp [corr]
    have c2 : slack (Fin.snoc (α := fun _ => F) (corr v) s) = s := by simp [slack]
    have := hv.2 (Fin.snoc (α := fun _ => F) (corr v) s) ((hp _).1.2 ⟨by rw [c1, c2]; exact hs, by rw [c1]; exact f2, by rw [c2]; exact h0⟩)
    rw [(hp _).2, (hp _).2, c1, c2] at this
    have h5 : prm.relax * slack v ^ 2 ≤ prm.relax * s ^ 2 := by linarith
    exact le_of_sq_le_sq (le_of_mul_le_mul_left h5 hr) h0
  have zero_of : slack v = 0 → v = 0 := by
    intro hs
    obtain ⟨s0, h0, hs0⟩ := exists_slack env d b h p prm steps 0
    have h1 := asif_slack_price env d b h p prm hr.le (fun i => (hW i).le) steps hS fuel qp hq hu v hv s0 h0 hs0
    rw [hs, mul_zero, zero_mul] at h1
    have h4 : ∑ i, p.W i * corr v i ^ 2 = 0 := le_antisymm h1 (Finset.sum_nonneg fun i _ => mul_nonneg (hW i).le (sq_nonneg _))
    rw [Finset.sum_eq_zero_iff_of_nonneg fun i _ => mul_nonneg (hW i).le (sq_nonneg _)] at h4
    funext i
    refine Fin.lastCases hs (fun i => ?_) i
    have := (mul_eq_zero.mp (h4 i (Finset.mem_univ _))).resolve_left (hW i).ne'
    exact pow_eq_zero_iff (two_ne_zero) |>.mp this
  have safe_zero : Safe env d b h p prm steps (corr v) 0 → v = 0 := fun hs => zero_of (le_antisymm (lower_slack 0 le_rfl hs) f3)
  have zero_safe : v = 0 → Safe env d b h p prm steps 0 0 := by
    intro hv0
    rw [hv0] at f1
    exact f1
  refine ⟨⟨fun hs => zero_safe (safe_zero hs), fun hs => ?_⟩, ⟨fun hs => ?_, zero_safe⟩, fun hne => ?_⟩
  · have := (asif_zero_unique env d b h p prm hW hr steps hS fuel qp hq hu hs v).1 hv
    rw [this]
    exact hs
  · exact (asif_zero_unique env d b h p prm hW hr steps hS fuel qp hq hu hs v).1 hv
  · have hpos : 0 < slack v := lt_of_le_of_ne f3 fun e => hne (zero_of e.symm)
    refine ⟨hpos, ?_⟩
    by_contra hc
    push Not at hc
    obtain ⟨e, he, hle⟩ := exists_pos_le (fun q : Fin prm.K × Fin h.nh => barrier d h prm.alpha p.x0 p.udes (steps q.1).sum
      (march env d b (steps q.1) 0 p.x0) (sens env d b (steps q.1) 0 p.x0 1) (corr v) q.2 + slack v) (fun q => by
        have h1 := f1 q.1 q.1.2 q.2
        have h2 := hc q.1 q.1.2 q.2
        exact lt_of_le_of_ne h1 fun e => h2 (by linarith))
    have h6 := lower_slack (max 0 (slack v - e)) (le_max_left _ _) (fun k hk j => by
      have h1 := hle (⟨k, hk⟩, j)
      dsimp only at h1
      have h2 := le_max_right 0 (slack v - e)
      linarith)
    rcases max_choice 0 (slack v - e) with hm | hm
    · rw [hm] at h6; linarith
    · rw [hm] at h6; linarith

/-- **C108, partial.** The violation is bounded: if some correction `mu` satisfies the input constraints and the barrier conditions up to `s`,
then the slack of the result satisfies `relax * slack^2 ≤ sum W mu^2 + relax * s^2`. -/
theorem asif_violation_bound_partial (hr : 0 ≤ prm.relax) (hW : ∀ i, 0 ≤ p.W i) (steps : ℕ → List F)
    (hS : Schedule prm.K (p.T / prm.K) (min prm.dt (p.T / prm.K)) steps) (fuel : ℕ) (qp : DQP F)
    (hq : toQP env d b h p prm fuel = some qp) (v : Fin (nu + 1) → F)
    (hv : Minimiser (qp.pbm (nu + 1) (prm.K * h.nh + p.ulim.rows + 1)) v) (mu : Fin nu → F) (s : F) (h0 : 0 ≤ s)
    (hb : InPoly p.ulim (env.uminus p.udes p.ulim.c + mu)) (hs : Safe env d b h p prm steps mu s) :
    Safe env d b h p prm steps (corr v) (slack v) ∧ prm.relax * slack v ^ 2 ≤ ∑ i, p.W i * mu i ^ 2 + prm.relax * s ^ 2 := by
  have hp := (asif_program env d b h p prm steps hS fuel qp hq).2
  refine ⟨((hp v).1.1 hv.1).1, ?_⟩
  have c1 : corr (Fin.snoc (α := fun _ => F) mu s) = mu := by funext i; simp [corr]
  have c2 : slack (Fin.snoc (α := fun _ => F) mu s) = s := by simp [slack]
  have := hv.2 (Fin.snoc (α := fun _ => F) mu s) ((hp _).1.2 ⟨by rw [c1, c2]; exact hs, by rw [c1]; exact hb, by rw [c2]; exact h0⟩)
  rw [(hp _).2, (hp _).2, c1, c2] at this
  have hM : 0 ≤ ∑ i, p.W i * corr v i ^ 2 := Finset.sum_nonneg fun i _ => mul_nonneg (hW i) (sq_nonneg _)
  linarith

end

/-- **C108, calls of the filter.** After any history, an optimal call with an admissible desired input returns that input if it satisfies the
barrier conditions, and otherwise an input that violates some of them. -/
theorem asif_call_violates [Archimedean F] (env : Env X U F nx nu) (solver : Solver F) (hex : Exact solver) (fuel : ℕ) (d : Dyn X U F nx nu)
    (prm : FPrm U F nu) (hr : 0 < prm.asif.relax) (hW : ∀ i, 0 < prm.W i) (cs : List (Call X U F nx)) (s s' : Filter X U F nx nu)
    (hrun : Filter.run env solver fuel cs (Filter.new d prm) = some s) (c : Call X U F nx) (hu : InBounds env prm.ulim c.udes) (u : U)
    (hc : s.call env solver fuel c = some (s', u, .optimal)) (steps : ℕ → List F)
    (hS : Schedule prm.asif.K (prm.T / prm.asif.K) (min prm.asif.dt (prm.T / prm.asif.K)) steps) :
    ∃ mu, u = env.uplus c.udes mu ∧
      (Safe env d c.b c.h ⟨prm.T, c.g, c.udes, prm.W, prm.ulim⟩ prm.asif steps mu 0 ↔
        Safe env d c.b c.h ⟨prm.T, c.g, c.udes, prm.W, prm.ulim⟩ prm.asif steps 0 0) ∧
      (Safe env d c.b c.h ⟨prm.T, c.g, c.udes, prm.W, prm.ulim⟩ prm.asif steps 0 0 → mu = 0) := by
  obtain ⟨qp, v, h1, h2, rfl⟩ := asif_optimal_call env solver hex fuel d prm cs s s' hrun c u hc
  obtain ⟨g1, g2, -⟩ := asif_never_enforces env d c.b c.h ⟨prm.T, c.g, c.udes, prm.W, prm.ulim⟩ prm.asif hr hW steps hS fuel qp h1 hu v h2
  exact ⟨corr v, rfl, g1, fun hs => by rw [g2.1 hs]; rfl⟩

end Verif.ASIF
