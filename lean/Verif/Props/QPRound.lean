import Verif.Proofs.QPRound
import Verif.Props.QP

/-!
# The certificate of `Optimal` in rounded arithmetic
-/

namespace Verif.QP

open Matrix Verif.QPSpec

variable {F : Type*} [Field F] [LinearOrder F] [IsStrictOrderedRing F] {n m : ℕ}

/-- **C96.** In floating point arithmetic with unit roundoff `u` (no underflow), with any linear solver, warm start and scaling, an
`Optimal` result without polishing satisfies the KKT conditions to tolerance up to rounding errors of explicit size. The
multipliers that count as zero are bounded by the rounding errors of the last step (`noise`), whose old iterate and solver output
are `old` and `w`. -/
theorem qp_optimal_certificate_rounded (ar : Arith F) (u : F) (hr : Rounds ar u) (env : Env F n) (prm : Params F) (p : Pbm F n m)
    (ws : Option ((Fin n → F) × (Fin m → F))) (fuel : ℕ) (sol : Sol F n m) (hsq : SqrtPos env) (hrho : 0 < prm.rho)
    (hea : 0 ≤ prm.epsAbs) (her : 0 ≤ prm.epsRel) (h : solveQPR ar env prm p ws fuel = .ok sol) (hc : sol.code = .optimal) :
    ∃ (s : Scaling F n m) (old new : It F n m) (w : Fin m → F), s.Pos ∧
      sol.primal = unXR ar s new.x ∧ sol.dual = unYR ar s new.y ∧
      (∀ i, new.y i = nextY ar prm.alpha (rhoVecR ar prm p s i) (w i) (old.y i) (old.z i) (new.z i)) ∧
      ApproxKKTR p prm.epsAbs prm.epsRel u sol.primal sol.dual fun i => (1 + u) ^ 2 * (s.sy i *
        noise u prm.alpha (alphaComp ar prm.alpha) (rhoVecR ar prm p s i) (w i) (old.y i) (old.z i) (new.z i) / s.c) := by
  have hu := hr.nonneg
  unfold solveQPR at h
  split at h
  · cases h
  rename_i s hs
  have hpos : s.Pos := by
    split at hs
    · exact scaleAllR_pos hr hsq hs
    · cases hs; exact Scaling.unit_pos
  unfold solveScaledR at h
  split at h
  · rename_i k ret new hl
    cases h
    have hret : ret = some .optimal := by
      cases ret with
      | none => simp [finishR] at hc
      | some c => simp only [finishR, Option.getD_some] at hc; rw [hc]
    subst hret
    rcases loopR_optimal hl with h0 | ⟨h0, j, old, hnew, hck⟩
    · unfold prepareR at h0
      split at h0
      · cases h0
      · simp only [precheckR] at h0; split at h0 <;> cases h0
    -- the rows are not empty
    have hrow : ∀ i, emptyRowR ar (p.l i) (p.u i) = false := by
      unfold prepareR at h0
      split at h0
      · cases h0
      · intro i
        by_contra hne
        simp only [precheckR] at h0
        rw [if_pos (List.any_eq_true.2 ⟨i, List.mem_finRange i, by simpa using hne⟩)] at h0
        cases h0
    set slv := (prepareR ar env prm p s).1
    set w : Fin m → F := fun i => slv (rhsR ar prm.sigma p s (rhoVecR ar prm p s) old) (.inr i) with hw
    have hz : ∀ i, new.z i = nextZ ar (s.sy i) (p.l i) (p.u i)
        (preZ ar prm.alpha (rhoVecR ar prm p s i) (w i) (old.y i) (old.z i)) := fun i => by rw [hnew]; rfl
    have hy : ∀ i, new.y i = nextY ar prm.alpha (rhoVecR ar prm p s i) (w i) (old.y i) (old.z i) (new.z i) :=
      fun i => by rw [hnew]; rfl
    refine ⟨s, old, new, w, hpos, rfl, rfl, hy, ?_⟩
    have htest : optimalTestR ar prm p (unXR ar s new.x) (unYR ar s new.y) (unZR ar s new.z) = true := by
      unfold checkR at hck
      split at hck
      · rename_i c hcs
        cases hck
        unfold checkStoppingR at hcs
        by_contra hne
        rw [if_neg hne] at hcs
        split at hcs
        · cases hcs
        · split at hcs <;> cases hcs
      · split at hck
        · split at hck <;> cases hck
        · cases hck
    obtain ⟨⟨rp, hrp, hrp'⟩, ⟨rd, hrd, hrd'⟩⟩ := optimalTestR_spec hr hea her htest
    refine ⟨unZR ar s new.z, rp, rd, _, _, _, _, _, ?_, ?_, norm_isMaxNorm _, norm_isMaxNorm _, norm_isMaxNorm _, norm_isMaxNorm _,
      norm_isMaxNorm _, hrp, hrp', hrd, hrd'⟩
    · -- the box
      intro i
      have hrw := nextZ_row hr (hrow i) (hpos.2.2 i) (preZ ar prm.alpha (rhoVecR ar prm p s i) (w i) (old.y i) (old.z i))
      rw [← hz i] at hrw
      refine ⟨fun hl => ?_, fun hl => ?_, fun a ha => ?_, fun b hb => ?_⟩
      · have := hrow i; rw [hl] at this; simp [emptyRowR] at this
      · have := hrow i; rw [hl] at this; cases hlo : p.l i <;> simp [hlo, emptyRowR] at this
      · have h1 := unZ_mono hr (hpos.2.2 i) (hrw.1 a ha)
        have h2 := (abs_le.1 (unscale_acc hr (hpos.2.2 i) a).1).1
        simp only [unZR]
        linarith
      · have h1 := unZ_mono hr (hpos.2.2 i) (hrw.2.1 b hb)
        have h2 := (abs_le.1 (unscale_acc hr (hpos.2.2 i) b).1).2
        simp only [unZR]
        linarith
    · -- complementarity
      intro i
      have hρ := rhoVecR_pos hr hrho p s i
      have hrw := nextZ_row hr (hrow i) (hpos.2.2 i) (preZ ar prm.alpha (rhoVecR ar prm p s i) (w i) (old.y i) (old.z i))
      rw [← hz i] at hrw
      have hnear := nextY_near hr (alpha := prm.alpha) (w := w i) (y := old.y i) (z := old.z i) (zn := new.z i) hρ
      rw [← hy i] at hnear
      have hnn := noise_nonneg hu (alpha := prm.alpha) (ac := alphaComp ar prm.alpha) (w := w i) (y := old.y i) (z := old.z i)
        (zn := new.z i) hρ
      have hsm := unY_small hr (y := new.y i) (hpos.2.2 i) hpos.1 hnn
      refine ⟨fun hlt => ?_, fun hlt => ?_⟩
      · have h1 : noise u prm.alpha (alphaComp ar prm.alpha) (rhoVecR ar prm p s i) (w i) (old.y i) (old.z i) (new.z i) < new.y i := by
          by_contra hne
          exact absurd (hsm.1 (not_lt.1 hne)) (not_le.2 hlt)
        have h2 : new.z i < preZ ar prm.alpha (rhoVecR ar prm p s i) (w i) (old.y i) (old.z i) := by
          by_contra hne
          have := mul_nonpos_of_nonneg_of_nonpos hρ.le (sub_nonpos.2 (not_lt.1 hne))
          have := (abs_le.1 hnear).2
          linarith
        obtain ⟨b, hb, hzb⟩ := hrw.2.2.1 h2
        refine ⟨b, hb, ?_⟩
        simp only [unZR]
        rw [hzb]
        exact (unscale_acc hr (hpos.2.2 i) b).1
      · have h1 : new.y i < -noise u prm.alpha (alphaComp ar prm.alpha) (rhoVecR ar prm p s i) (w i) (old.y i) (old.z i) (new.z i) := by
          by_contra hne
          exact absurd (hsm.2 (not_lt.1 hne)) (not_le.2 hlt)
        have h2 : preZ ar prm.alpha (rhoVecR ar prm p s i) (w i) (old.y i) (old.z i) < new.z i := by
          by_contra hne
          have := mul_nonneg hρ.le (sub_nonneg.2 (not_lt.1 hne))
          have := (abs_le.1 hnear).1
          linarith
        obtain ⟨a, ha, hza⟩ := hrw.2.2.2 h2
        refine ⟨a, ha, ?_⟩
        simp only [unZR]
        rw [hza]
        exact (unscale_acc hr (hpos.2.2 i) a).1
  · cases h
  · cases h

/-- Without rounding the statement is that of C01. -/
theorem approxKKTR_zero (p : Pbm F n m) (ea er : F) (x : Fin n → F) (y : Fin m → F) :
    ApproxKKTR p ea er 0 x y (fun _ => 0) ↔ ApproxKKT p ea er x y := by
  have ha : ∀ k, amp (0 : F) k = 0 := fun k => by simp [amp]
  have hbox : ∀ z, InBoxR 0 p z ↔ InBox p z := by
    intro z
    refine forall_congr' fun i => ?_
    cases hl : p.l i <;> cases hu : p.u i <;> simp [lower, upper, ha]
  have hcomp : ∀ z, ComplementaryR 0 p z y (fun _ => 0) ↔ Complementary p z y := by
    intro z
    refine forall_congr' fun i => ?_
    simp only [ha, zero_mul, neg_zero]
    refine and_congr (imp_congr_right fun _ => ?_) (imp_congr_right fun _ => ?_)
    · constructor
      · rintro ⟨b, hb, h⟩; rw [hb, sub_eq_zero.1 (abs_nonpos_iff.1 h)]
      · intro h; exact ⟨_, h, by simp⟩
    · constructor
      · rintro ⟨b, hb, h⟩; rw [hb, sub_eq_zero.1 (abs_nonpos_iff.1 h)]
      · intro h; exact ⟨_, h, by simp⟩
  simp only [ApproxKKTR, ApproxKKT, hbox, hcomp, ha, zero_mul, mul_zero, add_zero, one_pow, one_mul]
  constructor
  · rintro ⟨z, rp, rd, _, _, _, _, _, h1, h2, -, -, -, -, -, h3, h4, h5, h6⟩
    exact ⟨z, rp, rd, h1, h2, h3, h4, h5, h6⟩
  · rintro ⟨z, rp, rd, h1, h2, h3, h4, h5, h6⟩
    exact ⟨z, rp, rd, _, _, _, _, _, h1, h2, norm_isMaxNorm _, norm_isMaxNorm _, norm_isMaxNorm _, norm_isMaxNorm _, norm_isMaxNorm _,
      h3, h4, h5, h6⟩

/-! ## Without rounding this is the exact model -/

theorem stepR_exact (alpha sigma : F) (p : Pbm F n m) (s : Scaling F n m) (rho : Fin m → F)
    (solve : (Fin n ⊕ Fin m → F) → (Fin n ⊕ Fin m → F)) (it : It F n m) :
    stepR Arith.exact alpha sigma p s rho solve it = step alpha sigma p s rho solve it := by
  have hsc : ∀ (a : F) (e : Ext F), scaleR Arith.exact a e = e.scale a := fun a e => by cases e <;> rfl
  simp only [stepR, step, nextZ, hsc]
  rfl

theorem dySumR_exact (eps : F) (p : Pbm F n m) (dy : Fin m → F) (bound : F) (L : List (Fin m)) (acc : F) :
    dySumR Arith.exact eps p dy bound L acc = dySum eps p dy bound L acc := by
  induction L generalizing acc with
  | nil => rfl
  | cons i L ih =>
    rw [dySumR, dySum]
    simp only [ih]
    rfl

theorem checkR_exact (env : Env F n) (prm : Params F) (p : Pbm F n m) (s : Scaling F n m) (iter : ℕ) (old new : It F n m) :
    checkR Arith.exact env prm p s iter old new = check env prm p s iter old new := by
  have h1 : ∀ x y z, optimalTestR Arith.exact prm p x y z = optimalTest prm p x y z := fun _ _ _ => rfl
  have h2 : ∀ dy, primalInfTestR Arith.exact prm p dy = primalInfTest prm p dy := fun dy => by
    simp only [primalInfTestR, primalInfTest, dySumR_exact]; rfl
  have h3 : ∀ dx, dualInfTestR Arith.exact prm p dx = dualInfTest prm p dx := fun dx => by
    have : ∀ (e a b : F) (l u : Ext F), dualRowR Arith.exact e a b l u = dualRow e a b l u := fun e a b l u => by
      cases l <;> cases u <;> rfl
    simp only [dualInfTestR, dualInfTest, this]; rfl
  unfold checkR check checkStoppingR checkStopping
  simp only [h1, h2, h3]
  rfl

/-- The counter does not wrap: it stops before, or there are fewer rounds. -/
theorem loopR_exact (env : Env F n) (prm : Params F) (p : Pbm F n m) (s : Scaling F n m) (next : It F n m → It F n m) :
    ∀ (fuel iter : ℕ) (ret : Option Status) (it : It F n m),
      ((∃ N, prm.maxIter = some N ∧ iter ≤ N ∧ N < 2 ^ 32) ∨ iter + fuel ≤ 2 ^ 32) →
      loopR Arith.exact env prm p s next fuel iter ret it = loop env prm p s next fuel iter ret it := by
  intro fuel
  induction fuel with
  | zero => intro _ _ _ _; rfl
  | succ fuel ih =>
    intro iter ret it h
    rw [loopR, loop]
    split
    · rename_i hc
      split
      · rfl
      · simp only [checkR_exact]
        rcases h with ⟨N, h1, h2, h3⟩ | h
        · have hne : iter ≠ N := by rintro rfl; exact hc.1 h1
          rw [Nat.mod_eq_of_lt (by omega)]
          exact ih _ _ _ (Or.inl ⟨N, h1, by omega, h3⟩)
        · rcases Nat.lt_or_ge (iter + 1) (2 ^ 32) with hlt | hge
          · rw [Nat.mod_eq_of_lt hlt]
            exact ih _ _ _ (Or.inr (by omega))
          · have : fuel = 0 := by omega
            subst this
            rfl
    · rfl

/-- **C96, the model.** In exact arithmetic the rounded model with its 32-bit counter is the model of `solve_qp` without polishing,
as long as the counter does not wrap: with a limit on iterations (a `uint32_t`), or for up to 2^32 rounds. -/
theorem solveQPR_exact (env : Env F n) (prm : Params F) (p : Pbm F n m) (ws : Option ((Fin n → F) × (Fin m → F))) (fuel : ℕ)
    (hpol : prm.polish = false) (hN : (∃ N, prm.maxIter = some N ∧ N < 2 ^ 32) ∨ fuel ≤ 2 ^ 32) :
    solveQPR Arith.exact env prm p ws fuel = solveQP env prm p ws fuel := by
  have hloop : ∀ (r : ℕ) (s : Scaling F n m), scaleLoopR Arith.exact env.sqrt p r s = scaleLoop env.sqrt p r s := by
    intro r
    induction r with
    | zero => intro s; rfl
    | succ r ih =>
      intro s
      rw [scaleLoopR, scaleLoop, ih]
      rfl
  have hscale : scaleAllR Arith.exact env.sqrt p = scale env.sqrt p := by
    unfold scaleAllR scale
    rw [hloop]
    rfl
  have hstart : ∀ s : Scaling F n m, startR Arith.exact p s ws = start p s ws := by
    intro s
    cases ws with
    | none => rfl
    | some w =>
      simp only [startR, start, Arith.exact, id]
      congr 1
      funext i
      simp only [mulVec, dotProduct, Finset.mul_sum]
      exact Finset.sum_congr rfl fun j _ => by ring
  have hfin : ∀ (s : Scaling F n m) iter ret x y, finishR Arith.exact p s iter ret x y = finish p s iter ret x y := by
    intro s iter ret x y
    simp only [finishR, finish, Arith.exact, id]
    congr 1
    refine congrArg _ ?_
    funext j
    simp only [mulVec, dotProduct, Pi.add_apply, Finset.mul_sum]
    congr 1
    exact Finset.sum_congr rfl fun k _ => by simp only [unXR, Scaling.unX, id]; ring
  have hrho : ∀ s : Scaling F n m, rhoVecR Arith.exact prm p s = rhoVec prm p s := by
    intro s
    funext i
    unfold rhoVecR rhoVec
    cases p.l i <;> cases p.u i <;> rfl
  have hpre : precheckR Arith.exact p = precheck p := by
    have : ∀ a b : Ext F, emptyRowR Arith.exact a b = emptyRow a b := fun a b => by cases a <;> cases b <;> rfl
    simp only [precheckR, precheck, this]
  have hprep : ∀ s : Scaling F n m, prepareR Arith.exact env prm p s = prepare env prm p s := by
    intro s
    unfold prepareR prepare
    rw [hrho, hpre]
    rfl
  rw [solveQP_eq]
  unfold solveQPR chosenScaling
  rw [hscale]
  generalize (if prm.scaling = true then scale env.sqrt p else some Scaling.unit) = o
  cases o with
  | none => rfl
  | some s =>
    simp only
    unfold solveScaledR solveScaled
    rw [hprep, hrho, hstart, loopR_exact env prm p s _ fuel 0 _ _ (by
      rcases hN with ⟨N, h1, h2⟩ | h
      · exact Or.inl ⟨N, h1, Nat.zero_le _, h2⟩
      · exact Or.inr (by omega))]
    rw [show stepR Arith.exact prm.alpha prm.sigma p s (rhoVec prm p s) (prepare env prm p s).1 =
      step prm.alpha prm.sigma p s (rhoVec prm p s) (prepare env prm p s).1 from funext fun it => stepR_exact _ _ _ _ _ _ it]
    generalize loop env prm p s _ fuel 0 _ _ = r
    cases r with
    | ok r => simp only [conclude_nopolish (Or.inl hpol), hfin]
    | undef => rfl
    | timeout => rfl

/-! ## Cost -/

/-- **C96, cost.** For a convex problem a point that satisfies the KKT conditions up to rounding is suboptimal by at most the stated
sums: the two residuals, three roundings of the bounds, and the multipliers that are rounding errors. -/
theorem approxKKTR_near_minimiser (p : Pbm F n m) (hP : Lin.PSD p.P) (ea er u : F) (hu : 0 ≤ u) (x : Fin n → F) (y d : Fin m → F)
    (hd : ∀ i, 0 ≤ d i) (h : ApproxKKTR p ea er u x y d) :
    ∃ z Rp Rd, InBoxR u p z ∧ (∀ i, |(p.A *ᵥ x) i - z i| ≤ Rp) ∧ (∀ j, |(p.P *ᵥ x) j + p.q j + (p.Aᵀ *ᵥ y) j| ≤ Rd) ∧
      (∃ rp gA nz, Tol ea er (p.A *ᵥ x) z z rp ∧ IsMaxNorm (absMV p.A x) gA ∧ IsMaxNorm z nz ∧
        Rp = (1 + u) ^ 2 * (rp + er * (amp u n * gA)) + amp u (n + 1) * (gA + nz)) ∧
      (∃ rd gP gT nq, Tol ea er (p.P *ᵥ x) p.q (p.Aᵀ *ᵥ y) rd ∧ IsMaxNorm (absMV p.P x) gP ∧ IsMaxNorm (absMV p.Aᵀ y) gT ∧
        IsMaxNorm p.q nq ∧ Rd = (1 + u) ^ 2 * (rd + er * (amp u n * gP + amp u m * gT)) + amp u (n + m + 2) * (gP + nq + gT)) ∧
      ∀ w, Feasible p w → cost p x ≤ cost p w + Rd * ∑ j, |w j - x j| + Rp * ∑ i, |y i| +
        amp u 3 * ∑ i, |y i| * max |(p.l i).val| |(p.u i).val| + ∑ i, d i * |(p.A *ᵥ w) i - z i| := by
  obtain ⟨z, rp, rd, gA, gP, gT, nz, nq, hbox, hcomp, h1, h2, h3, h4, h5, h6, h7, h8, h9⟩ := h
  refine ⟨z, _, _, hbox, h7, h9, ⟨rp, gA, nz, h6, h1, h4, rfl⟩, ⟨rd, gP, gT, nq, h8, h2, h3, h5, rfl⟩, fun w hw => ?_⟩
  set Rp := (1 + u) ^ 2 * (rp + er * (amp u n * gA)) + amp u (n + 1) * (gA + nz)
  set Rd := (1 + u) ^ 2 * (rd + er * (amp u n * gP + amp u m * gT)) + amp u (n + m + 2) * (gP + nq + gT)
  have g1 := cost_gap hP x w
  have e : (p.P *ᵥ x + p.q) ⬝ᵥ (x - w) =
      (p.P *ᵥ x + p.q + p.Aᵀ *ᵥ y) ⬝ᵥ (x - w) + (z - p.A *ᵥ x) ⬝ᵥ y + (y ⬝ᵥ p.A *ᵥ w - y ⬝ᵥ z) := by
    have e1 : (p.Aᵀ *ᵥ y) ⬝ᵥ (x - w) = y ⬝ᵥ p.A *ᵥ x - y ⬝ᵥ p.A *ᵥ w := by
      rw [Matrix.mulVec_transpose, ← Matrix.dotProduct_mulVec, Matrix.mulVec_sub, dotProduct_sub]
    rw [add_dotProduct _ (p.Aᵀ *ᵥ y), e1, sub_dotProduct, dotProduct_comm z y, dotProduct_comm (p.A *ᵥ x) y]
    ring
  have g3 : (p.P *ᵥ x + p.q + p.Aᵀ *ᵥ y) ⬝ᵥ (x - w) ≤ Rd * ∑ j, |(x - w) j| := dot_abs_le h9
  have g4 : (z - p.A *ᵥ x) ⬝ᵥ y ≤ Rp * ∑ i, |y i| :=
    dot_abs_le (fun i => by rw [Pi.sub_apply, abs_sub_comm]; exact h7 i)
  have g5 : ∑ j, |(x - w) j| = ∑ j, |w j - x j| := Finset.sum_congr rfl fun j _ => by rw [Pi.sub_apply, abs_sub_comm]
  have g6 : y ⬝ᵥ p.A *ᵥ w - y ⬝ᵥ z ≤
      amp u 3 * ∑ i, |y i| * max |(p.l i).val| |(p.u i).val| + ∑ i, d i * |(p.A *ᵥ w) i - z i| := by
    rw [← dotProduct_sub, Finset.mul_sum, ← Finset.sum_add_distrib]
    refine Finset.sum_le_sum fun i _ => ?_
    rw [Pi.sub_apply]
    set t := (p.A *ᵥ w) i
    have hwi := hw i
    have ha := amp_nonneg hu 3
    have n1 : 0 ≤ amp u 3 * (|y i| * max |(p.l i).val| |(p.u i).val|) :=
      mul_nonneg ha (mul_nonneg (abs_nonneg _) ((abs_nonneg _).trans (le_max_left _ _)))
    have n2 : 0 ≤ d i * |t - z i| := mul_nonneg (hd i) (abs_nonneg _)
    by_cases c1 : d i < y i
    · obtain ⟨b, hb, hz⟩ := (hcomp i).1 c1
      have hy : 0 < y i := (hd i).trans_lt c1
      have htb : t ≤ b := by have := hwi.2; rw [hb] at this; exact this
      have k1 : t - z i ≤ amp u 3 * |b| := by have := (abs_le.1 hz).1; linarith
      have k2 : y i * (t - z i) ≤ amp u 3 * (|y i| * |b|) := by
        rw [abs_of_pos hy]
        have := mul_le_mul_of_nonneg_left k1 hy.le
        linarith
      have k3 : amp u 3 * (|y i| * |b|) ≤ amp u 3 * (|y i| * max |(p.l i).val| |(p.u i).val|) := by
        refine mul_le_mul_of_nonneg_left (mul_le_mul_of_nonneg_left ?_ (abs_nonneg _)) ha
        rw [hb]; exact le_max_right _ _
      linarith
    · by_cases c2 : y i < -d i
      · obtain ⟨b, hb, hz⟩ := (hcomp i).2 c2
        have hy : y i < 0 := by linarith [hd i]
        have htb : b ≤ t := by have := hwi.1; rw [hb] at this; exact this
        have k1 : z i - t ≤ amp u 3 * |b| := by have := (abs_le.1 hz).2; linarith
        have k2 : y i * (t - z i) ≤ amp u 3 * (|y i| * |b|) := by
          rw [abs_of_neg hy]
          have := mul_le_mul_of_nonneg_left k1 (neg_nonneg.2 hy.le)
          linarith
        have k3 : amp u 3 * (|y i| * |b|) ≤ amp u 3 * (|y i| * max |(p.l i).val| |(p.u i).val|) := by
          refine mul_le_mul_of_nonneg_left (mul_le_mul_of_nonneg_left ?_ (abs_nonneg _)) ha
          rw [hb]; exact le_max_left _ _
        linarith
      · have k : |y i| ≤ d i := abs_le.2 ⟨not_lt.1 c2, not_lt.1 c1⟩
        have k2 : y i * (t - z i) ≤ d i * |t - z i| := by
          refine (le_abs_self _).trans ?_
          rw [abs_mul]
          exact mul_le_mul_of_nonneg_right k (abs_nonneg _)
        linarith
  rw [g5] at g3
  linarith

end Verif.QP
