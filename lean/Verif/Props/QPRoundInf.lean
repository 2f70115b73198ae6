import Verif.Spec.QPRoundInf
import Verif.Props.QPRound
import Verif.Proofs.QPInf

/-! # Verdicts of infeasibility in rounded arithmetic (C135) -/

namespace Verif.QP

open Matrix Verif.QPSpec

variable {F : Type*} [Field F] [LinearOrder F] [IsStrictOrderedRing F] {n m : ℕ} {ar : Arith F} {u : F}

/-! ## The test of primal infeasibility -/

/-- The terms of the sum. -/
def termU (p : Pbm F n m) (d : Fin m → F) (i : Fin m) : F := match p.u i with | .fin b => b * max 0 (d i) | _ => 0
def termL (p : Pbm F n m) (d : Fin m → F) (i : Fin m) : F := match p.l i with | .fin a => a * min 0 (d i) | _ => 0
def suppAbs1 (p : Pbm F n m) (d : Fin m → F) (i : Fin m) : F := boundAbs (p.u i) * |max 0 (d i)| + boundAbs (p.l i) * |min 0 (d i)|

theorem term_acc (hr : Rounds ar u) {k : ℕ} (hk : 1 ≤ k) {acc t T b d : F} (h : Acc u k acc t T) :
    Acc u (k + 1) (ar.fl (acc + ar.fl (b * d))) (t + b * d) (T + |b| * |d|) := by
  have h1 : Acc u 1 (ar.fl (b * d)) (b * d) (|b| * |d|) := by
    rw [← abs_mul]
    exact (Acc.exact u (b * d)).fl hr
  exact (h.add (h1.mono hr.nonneg hk)).fl hr

theorem acc_succ (hr : Rounds ar u) {k : ℕ} {x t T : F} (h : Acc u k x t T) : Acc u (k + 1) x t T := h.mono hr.nonneg (Nat.le_succ k)

theorem dySumR_acc (hr : Rounds ar u) {eps b : F} {p : Pbm F n m} {dy : Fin m → F} : ∀ {L : List (Fin m)} {acc S t T : F} {k : ℕ}, 1 ≤ k → Acc u k acc t T →
    dySumR ar eps p dy b L acc = some S → Acc u (k + 2 * L.length) S (t + (L.map (supp1 p dy)).sum) (T + (L.map (suppAbs1 p dy)).sum) ∧
      ∀ i ∈ L, (p.u i = .pos → dy i ≤ ar.fl (eps * b)) ∧ (p.l i = .neg → ar.fl (-eps * b) ≤ dy i) := by
  intro L
  induction L with
  | nil =>
    intro acc S t T k hk ha h
    simp only [dySumR, Option.some.injEq] at h
    subst h
    simpa using ha
  | cons i L ih =>
    intro acc S t T k hk ha h
    rw [dySumR] at h
    -- the upper bound
    have up : ∀ o : Option F, (match p.u i with
        | .pos => if ar.fl (eps * b) < dy i then none else some acc
        | .fin b => some (ar.fl (acc + ar.fl (b * max 0 (dy i))))
        | .neg => some acc) = o → ∀ a, o = some a →
        Acc u (k + 1) a (t + termU p dy i) (T + boundAbs (p.u i) * |max 0 (dy i)|) ∧ (p.u i = .pos → dy i ≤ ar.fl (eps * b)) := by
      intro o ho a hoa
      subst hoa
      unfold termU
      cases hu : p.u i with
      | neg =>
        rw [hu] at ho
        cases ho
        refine ⟨?_, fun h => by cases h⟩
        simpa [boundAbs] using acc_succ hr ha
      | fin c =>
        rw [hu] at ho
        cases ho
        exact ⟨term_acc hr hk ha, fun h => by cases h⟩
      | pos =>
        rw [hu] at ho
        simp only at ho
        split at ho
        · cases ho
        · rename_i hlt
          cases ho
          refine ⟨?_, fun _ => not_lt.1 hlt⟩
          simpa [boundAbs] using acc_succ hr ha
    split at h
    · cases h
    · rename_i a1 h1
      obtain ⟨acc1, c1⟩ := up _ h1 a1 rfl
      have lo : ∀ o : Option F, (match p.l i with
          | .neg => if dy i < ar.fl (-eps * b) then none else some a1
          | .fin a => some (ar.fl (a1 + ar.fl (a * min 0 (dy i))))
          | .pos => some a1) = o → ∀ a, o = some a →
          Acc u (k + 1 + 1) a (t + termU p dy i + termL p dy i) (T + boundAbs (p.u i) * |max 0 (dy i)| + boundAbs (p.l i) * |min 0 (dy i)|) ∧
            (p.l i = .neg → ar.fl (-eps * b) ≤ dy i) := by
        intro o ho a hoa
        subst hoa
        cases hl : p.l i with
        | pos =>
          rw [hl] at ho
          cases ho
          refine ⟨?_, fun h => by cases h⟩
          have : termL p dy i = 0 := by unfold termL; rw [hl]
          rw [this]
          simpa [boundAbs] using acc_succ hr acc1
        | fin c =>
          rw [hl] at ho
          cases ho
          have : termL p dy i = c * min 0 (dy i) := by unfold termL; rw [hl]
          rw [this]
          exact ⟨term_acc hr (by omega) acc1, fun h => by cases h⟩
        | neg =>
          rw [hl] at ho
          simp only at ho
          split at ho
          · cases ho
          · rename_i hlt
            cases ho
            refine ⟨?_, fun _ => not_lt.1 hlt⟩
            have : termL p dy i = 0 := by unfold termL; rw [hl]
            rw [this]
            simpa [boundAbs] using acc_succ hr acc1
      split at h
      · cases h
      · rename_i a2 h2
        obtain ⟨acc2, c2⟩ := lo _ h2 a2 rfl
        obtain ⟨g1, g2⟩ := ih (by omega) acc2 h
        refine ⟨?_, fun w hw => ?_⟩
        · rw [List.length_cons, List.map_cons, List.sum_cons, List.map_cons, List.sum_cons]
          have e1 : k + 2 * (L.length + 1) = k + 1 + 1 + 2 * L.length := by ring
          have e2 : t + (supp1 p dy i + (L.map (supp1 p dy)).sum) = t + termU p dy i + termL p dy i + (L.map (supp1 p dy)).sum := by
            have : supp1 p dy i = termU p dy i + termL p dy i := rfl
            rw [this]
            ring
          have e3 : T + (suppAbs1 p dy i + (L.map (suppAbs1 p dy)).sum) =
              T + boundAbs (p.u i) * |max 0 (dy i)| + boundAbs (p.l i) * |min 0 (dy i)| + (L.map (suppAbs1 p dy)).sum := by
            unfold suppAbs1
            ring
          rw [e1, e2, e3]
          exact g1
        · rcases List.mem_cons.1 hw with rfl | hw
          · exact ⟨c1, c2⟩
          · exact g2 w hw

theorem fl_zero (hr : Rounds ar u) : ar.fl 0 = 0 := by
  have := hr.fl_err 0
  rw [sub_zero, abs_zero, mul_zero] at this
  exact abs_nonpos_iff.1 this

theorem fl_neg_ge (hr : Rounds ar u) {a : F} (h : 0 ≤ a) : -((1 + u) * a) ≤ ar.fl (-a) := by
  have := hr.fl_err (-a)
  rw [abs_neg, abs_of_nonneg h] at this
  have := (abs_le.1 this).1
  linarith

theorem primalInfTestR_spec (hr : Rounds ar u) {prm : Params F} (he : 0 ≤ prm.epsPrimalInf) {p : Pbm F n m} {dy : Fin m → F} (h : primalInfTestR ar prm p dy = true) :
    ApproxFarkasR p prm.epsPrimalInf u dy := by
  unfold primalInfTestR at h
  split at h
  · cases h
  · rename_i S hS
    obtain ⟨e, f⟩ := dySumR_acc hr (k := 1) le_rfl (t := 0) (T := 0) (by simpa using (Acc.exact u (0 : F)).mono hr.nonneg (Nat.zero_le 1)) hS
    rw [zero_add, zero_add, sum_finRange_eq, sum_finRange_eq, List.length_finRange, add_comm 1] at e
    rw [decide_eq_true_eq] at h
    have h1 := lt_of_le_of_lt (le_max_left _ _) h
    have h2 := lt_of_le_of_lt (le_max_right _ _) h
    have hen : 0 ≤ prm.epsPrimalInf * norm dy := mul_nonneg he (norm_nonneg _)
    have hfl := hr.fl_le hen
    refine ⟨norm dy, norm_isMaxNorm _, ?_, fun j => ?_, ?_, fun i => ⟨fun hp => ((f i (List.mem_finRange i)).1 hp).trans hfl, fun hp => ?_⟩⟩
    · by_contra hc
      have : norm dy = 0 := le_antisymm (not_lt.1 hc) (norm_nonneg _)
      rw [this, mul_zero, fl_zero hr] at h1
      exact absurd h1 (not_lt.2 (norm_nonneg _))
    · have g1 := lt_of_le_of_lt (le_norm (ar.mv p.Aᵀ dy) j) h1
      have g2 := hr.mv_err p.Aᵀ dy j
      have g3 : |(p.Aᵀ *ᵥ dy) j| ≤ |ar.mv p.Aᵀ dy j| + |ar.mv p.Aᵀ dy j - (p.Aᵀ *ᵥ dy) j| := by
        have := abs_sub_abs_le_abs_sub ((p.Aᵀ *ᵥ dy) j) (ar.mv p.Aᵀ dy j)
        rw [abs_sub_comm] at this
        linarith
      linarith
    · have g1 := (abs_le.1 e.1).1
      have g2 : support p dy = ∑ i, supp1 p dy i := rfl
      have g3 : supportAbs p dy = ∑ i, suppAbs1 p dy i := rfl
      rw [g2, g3]
      linarith
    · have := (f i (List.mem_finRange i)).2 hp
      rw [neg_mul] at this
      exact (fl_neg_ge hr hen).trans this

theorem dualInfTestR_spec (hr : Rounds ar u) (hdot : DotOk ar u) {prm : Params F} (he : 0 ≤ prm.epsDualInf) {p : Pbm F n m} {dx : Fin n → F} (h : dualInfTestR ar prm p dx = true) :
    ApproxRecessionR p prm.epsDualInf u dx := by
  unfold dualInfTestR at h
  simp only [Bool.and_eq_true, decide_eq_true_eq, List.all_eq_true] at h
  obtain ⟨⟨h1, h2⟩, h3⟩ := h
  have hn : 0 ≤ prm.epsDualInf * norm dx := mul_nonneg he (norm_nonneg _)
  have hfl := hr.fl_le hn
  refine ⟨norm dx, norm_isMaxNorm _, fun j => ?_, ?_, fun i => ?_⟩
  · have g1 := (le_norm (ar.mv p.P dx) j).trans h1
    have g2 := hr.mv_err p.P dx j
    have := abs_sub_abs_le_abs_sub ((p.P *ᵥ dx) j) (ar.mv p.P dx j)
    rw [abs_sub_comm] at this
    linarith
  · have := (abs_le.1 (hdot p.q dx)).1
    linarith
  · have := h3 i (List.mem_finRange i)
    have g2 := abs_le.1 (hr.mv_err p.A dx i)
    have g3 : -((1 + u) * (prm.epsDualInf * norm dx)) ≤ ar.fl (-prm.epsDualInf * norm dx) := by
      rw [neg_mul]
      exact fl_neg_ge hr hn
    have g4 := amp_nonneg hr.nonneg n
    cases hu : p.u i <;> cases hl : p.l i <;> rw [hu, hl] at this <;>
      simp only [dualRowR, decide_eq_true_eq] at this <;> simp only [ne_eq, reduceCtorEq, not_true_eq_false, not_false_eq_true,
        true_implies, false_implies, true_and, and_true]
    all_goals first
      | linarith
      | (rw [abs_lt] at this; constructor <;> linarith)
      | skip

/-! ## The solver -/

theorem loopR_some {env : Env F n} {prm : Params F} {p : Pbm F n m} {s : Scaling F n m} {next : It F n m → It F n m} {c : Status} :
    ∀ {fuel iter : ℕ} {ret : Option Status} {it : It F n m} {k : ℕ} {it' : It F n m},
      loopR ar env prm p s next fuel iter ret it = .ok (k, some c, it') →
      ret = some c ∨ (ret = none ∧ ∃ j old, it' = next old ∧ checkR ar env prm p s j old it' = some c) := by
  intro fuel
  induction fuel with
  | zero => intro _ _ _ _ _ h; simp [loopR] at h
  | succ fuel ih =>
    intro iter ret it k it' h
    rw [loopR] at h
    split at h
    · rename_i hc
      split at h
      · cases h
      · right
        refine ⟨hc.2, ?_⟩
        rcases ih h with h' | ⟨_, h'⟩
        · split at h'
          · rename_i hz
            have hend : it' = next it := by
              rw [if_pos hz, h'] at h
              cases fuel with
              | zero => simp [loopR] at h
              | succ f =>
                rw [loopR, if_neg (by simp)] at h
                cases h; rfl
            exact ⟨iter, it, hend, by rw [hend]; exact h'⟩
          · cases h'
        · exact h'
    · cases h; exact Or.inl rfl

theorem checkR_codes {env : Env F n} {prm : Params F} {p : Pbm F n m} {s : Scaling F n m} {i : ℕ} {old new : It F n m} {c : Status}
    (h : checkR ar env prm p s i old new = some c) :
    (c = .primalInfeasible → ∃ d, primalInfTestR ar prm p d = true) ∧ (c = .dualInfeasible → ∃ d, dualInfTestR ar prm p d = true) := by
  unfold checkR at h
  split at h
  · rename_i c' hc'
    cases h
    unfold checkStoppingR at hc'
    split at hc'
    · cases hc'; exact ⟨fun h => (by cases h), fun h => by cases h⟩
    · split at hc'
      · rename_i ho; cases hc'; exact ⟨fun _ => ⟨_, ho⟩, fun h => by cases h⟩
      · split at hc'
        · rename_i ho; cases hc'; exact ⟨fun h => (by cases h), fun _ => ⟨_, ho⟩⟩
        · cases hc'
  · split at h
    · split at h
      · cases h; exact ⟨fun h => (by cases h), fun h => by cases h⟩
      · cases h
    · cases h

theorem emptyRowR_none (hr : Rounds ar u) {p : Pbm F n m} {i : Fin m} (h : emptyRowR ar (p.l i) (p.u i) = true) (x : Fin n → F) : ¬Feasible p x := by
  intro hx
  obtain ⟨h1, h2⟩ := hx i
  cases hl : p.l i with
  | pos => rw [hl] at h1; exact h1
  | neg =>
    cases hu : p.u i with
    | neg => rw [hu] at h2; exact h2
    | fin b => rw [hl, hu] at h; simp [emptyRowR] at h
    | pos => rw [hl, hu] at h; simp [emptyRowR] at h
  | fin a =>
    cases hu : p.u i with
    | neg => rw [hu] at h2; exact h2
    | fin b =>
      rw [hl, hu] at h
      rw [hl] at h1
      rw [hu] at h2
      simp only [emptyRowR, decide_eq_true_eq] at h
      have h3 : a ≤ b := le_trans h1 h2
      exact absurd h (not_lt.2 (hr.fl_nonneg (sub_nonneg.2 h3)))
    | pos => rw [hl, hu] at h; simp [emptyRowR] at h

theorem run_verdict (hr : Rounds ar u) {env : Env F n} {prm : Params F} {p : Pbm F n m} {ws : Option ((Fin n → F) × (Fin m → F))} {fuel : ℕ} {sol : Sol F n m}
    (h : solveQPR ar env prm p ws fuel = .ok sol) :
    (sol.code = .primalInfeasible → (∀ x, ¬Feasible p x) ∨ ∃ d, primalInfTestR ar prm p d = true) ∧
    (sol.code = .dualInfeasible → ∃ d, dualInfTestR ar prm p d = true) := by
  unfold solveQPR at h
  split at h
  · cases h
  rename_i s hs
  unfold solveScaledR at h
  split at h
  · rename_i k ret new hl
    cases h
    cases ret with
    | none => exact ⟨fun h => by simp [finishR] at h, fun h => by simp [finishR] at h⟩
    | some c =>
      have hcode : (finishR ar p s k (some c) new.x new.y).code = c := rfl
      rw [hcode]
      rcases loopR_some hl with h0 | ⟨-, j, old, -, hck⟩
      · unfold prepareR at h0
        split at h0
        · cases h0; exact ⟨fun h => (by cases h), fun h => by cases h⟩
        · simp only [precheckR] at h0
          split at h0
          · rename_i hany
            cases h0
            obtain ⟨i, -, hi⟩ := List.any_eq_true.1 hany
            exact ⟨fun _ => Or.inl (emptyRowR_none hr hi), fun h => by cases h⟩
          · cases h0
      · have := checkR_codes hck
        exact ⟨fun hc => Or.inr (this.1 hc), this.2⟩
  · cases h
  · cases h

/-! ## What the certificates say -/

/-- A point that keeps a distance of `δ ≥ 0` from the bounds, and a direction whose wrong signs are small. -/
theorem slack_rows {p : Pbm F n m} {e δ : F} (he : 0 ≤ e) (hδ : 0 ≤ δ) {d : Fin m → F} (h3 : ∀ i, (p.u i = .pos → d i ≤ e) ∧ (p.l i = .neg → -e ≤ d i)) {x : Fin n → F}
    (hx : Slack p x δ) : d ⬝ᵥ p.A *ᵥ x ≤ support p d - δ * ∑ i, |d i| + e * ∑ i, (|(p.A *ᵥ x) i| + δ) := by
  have row : ∀ i, d i * (p.A *ᵥ x) i ≤ supp1 p d i - δ * |d i| + e * (|(p.A *ᵥ x) i| + δ) := by
    intro i
    set w := (p.A *ᵥ x) i with hw
    obtain ⟨n1, n2, hl, hu⟩ := hx i
    have habs : 0 ≤ e * (|w| + δ) := mul_nonneg he (add_nonneg (abs_nonneg w) hδ)
    have aux : ∀ c, |c| ≤ e → c * w + δ * |c| ≤ e * (|w| + δ) := fun c hc => by
      have h1 : c * w ≤ |c| * |w| := by rw [← abs_mul]; exact le_abs_self _
      have h2 := mul_le_mul_of_nonneg_right hc (add_nonneg (abs_nonneg w) hδ)
      linarith
    rcases le_total 0 (d i) with hd | hd
    · have e3 : termL p d i = 0 := by
        unfold termL
        cases p.l i <;> simp [min_eq_left hd]
      have e4 : supp1 p d i = termU p d i + termL p d i := rfl
      rw [e4, e3, abs_of_nonneg hd]
      unfold termU
      rw [max_eq_right hd]
      cases hc : p.u i with
      | neg => exact absurd hc n2
      | fin b =>
        have := mul_le_mul_of_nonneg_left (hu b hc) hd
        simp only
        linarith
      | pos =>
        have := aux (d i) (by rw [abs_of_nonneg hd]; exact (h3 i).1 hc)
        rw [abs_of_nonneg hd] at this
        simp only
        linarith
    · have e3 : termU p d i = 0 := by
        unfold termU
        cases p.u i <;> simp [max_eq_left hd]
      have e4 : supp1 p d i = termU p d i + termL p d i := rfl
      rw [e4, e3, abs_of_nonpos hd]
      unfold termL
      rw [min_eq_right hd]
      cases hc : p.l i with
      | pos => exact absurd hc n1
      | fin a =>
        have := mul_le_mul_of_nonpos_left (hl a hc) hd
        simp only
        linarith
      | neg =>
        have := aux (d i) (by rw [abs_of_nonpos hd]; have := (h3 i).2 hc; linarith)
        rw [abs_of_nonpos hd] at this
        simp only
        linarith
  have : support p d = ∑ i, supp1 p d i := rfl
  rw [this, Finset.mul_sum, Finset.mul_sum, ← Finset.sum_sub_distrib, ← Finset.sum_add_distrib]
  exact Finset.sum_le_sum fun i _ => row i

theorem feasible_slack {p : Pbm F n m} {x : Fin n → F} (hx : Feasible p x) : Slack p x 0 := by
  intro i
  obtain ⟨h1, h2⟩ := hx i
  refine ⟨fun h => by rw [h] at h1; exact h1, fun h => by rw [h] at h2; exact h2, fun a ha => ?_, fun b hb => ?_⟩
  · rw [ha] at h1; rw [add_zero]; exact h1
  · rw [hb] at h2; rw [add_zero]; exact h2

theorem columns_low {p : Pbm F n m} {d : Fin m → F} {c : Fin n → F} (h : ∀ j, |(p.Aᵀ *ᵥ d) j| ≤ c j) (x : Fin n → F) : -∑ j, c j * |x j| ≤ d ⬝ᵥ p.A *ᵥ x := by
  have e1 : d ⬝ᵥ p.A *ᵥ x = ∑ j, (p.Aᵀ *ᵥ d) j * x j := by rw [Matrix.dotProduct_mulVec, ← Matrix.mulVec_transpose]; rfl
  rw [e1, ← Finset.sum_neg_distrib]
  refine Finset.sum_le_sum fun j _ => ?_
  have h1 : -((p.Aᵀ *ᵥ d) j * x j) ≤ |(p.Aᵀ *ᵥ d) j| * |x j| := by rw [← abs_mul]; exact neg_le_abs _
  have h2 := mul_le_mul_of_nonneg_right (h j) (abs_nonneg (x j))
  linarith

/-- **C135, primal.** `PrimalInfeasible` in floating point means that there is no feasible point, or a certificate up to tolerance and rounding; then every feasible point satisfies
`-support d ≤ (1 + u) eps |d| (|x|_1 + |Ax|_1) + ((1 + u)^m - 1) |A'| |d| |x|`. -/
theorem qp_primal_infeasible_rounded (hr : Rounds ar u) {env : Env F n} {prm : Params F} {p : Pbm F n m} {ws : Option ((Fin n → F) × (Fin m → F))} {fuel : ℕ} {sol : Sol F n m}
    (he : 0 ≤ prm.epsPrimalInf) (h : solveQPR ar env prm p ws fuel = .ok sol) (hc : sol.code = .primalInfeasible) :
    (∀ x, ¬Feasible p x) ∨ ∃ d r, ApproxFarkasR p prm.epsPrimalInf u d ∧ IsMaxNorm d r ∧ ∀ x, Feasible p x →
      -support p d ≤ (1 + u) * (prm.epsPrimalInf * r) * (∑ j, |x j| + ∑ i, |(p.A *ᵥ x) i|) + amp u m * ∑ j, absMV p.Aᵀ d j * |x j| := by
  rcases (run_verdict hr h).1 hc with h1 | ⟨d, hd⟩
  · exact Or.inl h1
  · have hF := primalInfTestR_spec hr he hd
    obtain ⟨r, hr1, hr0, h5, -, h7⟩ := id hF
    have he' : 0 ≤ (1 + u) * (prm.epsPrimalInf * r) := mul_nonneg (by linarith [hr.nonneg]) (mul_nonneg he hr0.le)
    refine Or.inr ⟨d, r, hF, hr1, fun x hx => ?_⟩
    have g1 := slack_rows he' le_rfl h7 (feasible_slack hx)
    have g2 := columns_low (fun j => (h5 j).le) x
    have g3 : ∑ j, ((1 + u) * (prm.epsPrimalInf * r) + amp u m * absMV p.Aᵀ d j) * |x j| =
        (1 + u) * (prm.epsPrimalInf * r) * ∑ j, |x j| + amp u m * ∑ j, absMV p.Aᵀ d j * |x j| := by
      rw [Finset.mul_sum, Finset.mul_sum, ← Finset.sum_add_distrib]
      exact Finset.sum_congr rfl fun j _ => by ring
    rw [g3] at g2
    simp only [add_zero, zero_mul, sub_zero] at g1
    linarith

/-- **C135, zero tolerance.** With tolerance zero `PrimalInfeasible` is right also in floating point. -/
theorem qp_primal_infeasible_rounded_zero (hr : Rounds ar u) {env : Env F n} {prm : Params F} {p : Pbm F n m} {ws : Option ((Fin n → F) × (Fin m → F))} {fuel : ℕ} {sol : Sol F n m}
    (he : prm.epsPrimalInf = 0) (h : solveQPR ar env prm p ws fuel = .ok sol) (hc : sol.code = .primalInfeasible) (x : Fin n → F) : ¬Feasible p x := by
  rcases (run_verdict hr h).1 hc with h1 | ⟨d, hd⟩
  · exact h1 x
  · exfalso
    unfold primalInfTestR at hd
    split at hd
    · cases hd
    · rw [decide_eq_true_eq, he, zero_mul, fl_zero hr] at hd
      exact absurd (lt_of_le_of_lt (le_max_left _ _) hd) (not_lt.2 (norm_nonneg _))

/-- **C135, programs with room.** If some point keeps a distance from all bounds that exceeds tolerance and rounding errors, floating point does not call the program infeasible. -/
theorem qp_slack_rounded (hr : Rounds ar u) {env : Env F n} {prm : Params F} {p : Pbm F n m} {ws : Option ((Fin n → F) × (Fin m → F))} {fuel : ℕ} {sol : Sol F n m}
    (he : 0 ≤ prm.epsPrimalInf) (h : solveQPR ar env prm p ws fuel = .ok sol) {x : Fin n → F} {δ : F} (hδ : 0 ≤ δ) (hx : Slack p x δ)
    (hbig : (1 + u) * prm.epsPrimalInf * (1 + ∑ j, |x j| + ∑ i, (|(p.A *ᵥ x) i| + δ)) + amp u (2 * m + 1) * ∑ i, (boundAbs (p.u i) + boundAbs (p.l i)) +
      amp u m * ∑ j, (∑ i, |p.A i j|) * |x j| < δ) : sol.code ≠ .primalInfeasible := by
  intro hc
  rcases (run_verdict hr h).1 hc with h1 | ⟨d, hd⟩
  · refine h1 x fun i => ?_
    obtain ⟨n1, n2, hl, hu⟩ := hx i
    constructor
    · cases h' : p.l i with
      | neg => trivial
      | fin a => have := hl a h'; change a ≤ _; linarith
      | pos => exact absurd h' n1
    · cases h' : p.u i with
      | neg => exact absurd h' n2
      | fin b => have := hu b h'; change _ ≤ b; linarith
      | pos => trivial
  · obtain ⟨r, hr1, hr0, h5, h6, h7⟩ := primalInfTestR_spec hr he hd
    have hu0 := hr.nonneg
    have he' : 0 ≤ (1 + u) * (prm.epsPrimalInf * r) := mul_nonneg (by linarith) (mul_nonneg he hr0.le)
    have g1 := slack_rows he' hδ h7 hx
    have g2 := columns_low (fun j => (h5 j).le) x
    have hA : ∀ j, absMV p.Aᵀ d j ≤ r * ∑ i, |p.A i j| := fun j => by
      unfold absMV
      rw [Finset.mul_sum]
      refine Finset.sum_le_sum fun i _ => ?_
      rw [mul_comm]
      exact mul_le_mul_of_nonneg_right (hr1.2.1 i) (abs_nonneg _)
    have hb : ∀ b : Ext F, 0 ≤ boundAbs b := fun b => by cases b <;> simp [boundAbs]
    have hS : supportAbs p d ≤ r * ∑ i, (boundAbs (p.u i) + boundAbs (p.l i)) := by
      unfold supportAbs
      rw [Finset.mul_sum]
      refine Finset.sum_le_sum fun i _ => ?_
      have k1 : |max 0 (d i)| ≤ r := by
        rw [abs_of_nonneg (le_max_left _ _)]
        exact max_le hr0.le ((le_abs_self _).trans (hr1.2.1 i))
      have k2 : |min 0 (d i)| ≤ r := by
        rw [abs_of_nonpos (min_le_left _ _)]
        have := (neg_le_abs (d i)).trans (hr1.2.1 i)
        rcases min_choice 0 (d i) with h' | h' <;> rw [h'] <;> linarith
      have := mul_le_mul_of_nonneg_left k1 (hb (p.u i))
      have := mul_le_mul_of_nonneg_left k2 (hb (p.l i))
      linarith
    have hdr : r ≤ ∑ i, |d i| := by
      rcases hr1.2.2 with h0 | ⟨i, hi⟩
      · exact absurd h0 hr0.ne'
      · rw [hi]
        exact Finset.single_le_sum (f := fun i => |d i|) (fun i _ => abs_nonneg _) (Finset.mem_univ i)
    have ha1 := amp_nonneg hu0 (2 * m + 1)
    have ha2 := amp_nonneg hu0 m
    have s1 := mul_le_mul_of_nonneg_left hS ha1
    have s2 := mul_le_mul_of_nonneg_left hdr hδ
    have s3 : ∑ j, ((1 + u) * (prm.epsPrimalInf * r) + amp u m * absMV p.Aᵀ d j) * |x j| ≤
        (1 + u) * (prm.epsPrimalInf * r) * ∑ j, |x j| + amp u m * (r * ∑ j, (∑ i, |p.A i j|) * |x j|) := by
      rw [Finset.mul_sum, Finset.mul_sum, Finset.mul_sum, ← Finset.sum_add_distrib]
      refine Finset.sum_le_sum fun j _ => ?_
      have := mul_le_mul_of_nonneg_left (mul_le_mul_of_nonneg_right (hA j) (abs_nonneg (x j))) ha2
      nlinarith
    have s4 := mul_lt_mul_of_pos_left hbig hr0
    nlinarith

/-- **C135, dual.** `DualInfeasible` in floating point means a direction of unboundedness up to tolerance and rounding. -/
theorem qp_dual_infeasible_rounded (hr : Rounds ar u) (hdot : DotOk ar u) {env : Env F n} {prm : Params F} {p : Pbm F n m} {ws : Option ((Fin n → F) × (Fin m → F))} {fuel : ℕ}
    {sol : Sol F n m} (he : 0 ≤ prm.epsDualInf) (h : solveQPR ar env prm p ws fuel = .ok sol) (hc : sol.code = .dualInfeasible) : ∃ d, ApproxRecessionR p prm.epsDualInf u d := by
  obtain ⟨d, hd⟩ := (run_verdict hr h).2 hc
  exact ⟨d, dualInfTestR_spec hr hdot he hd⟩

/-- **C135, strictly convex programs.** If `P` moves every direction by more than tolerance and rounding errors and some row has two finite bounds, floating point does not call the program
unbounded. (Without such a row it may: C112.) -/
theorem qp_convex_rounded (hr : Rounds ar u) {env : Env F n} {prm : Params F} {p : Pbm F n m} {ws : Option ((Fin n → F) × (Fin m → F))} {fuel : ℕ} {sol : Sol F n m}
    (he : 0 ≤ prm.epsDualInf) (h : solveQPR ar env prm p ws fuel = .ok sol)
    (hP : ∀ d : Fin n → F, d ≠ 0 → ∃ j, (1 + u) * (prm.epsDualInf * norm d) + amp u n * absMV p.P d j < |(p.P *ᵥ d) j|)
    (hrow : ∃ i a b, p.l i = .fin a ∧ p.u i = .fin b) : sol.code ≠ .dualInfeasible := by
  intro hc
  obtain ⟨d, hd⟩ := (run_verdict hr h).2 hc
  unfold dualInfTestR at hd
  simp only [Bool.and_eq_true, decide_eq_true_eq, List.all_eq_true] at hd
  obtain ⟨⟨h1, -⟩, h3⟩ := hd
  have hn : 0 ≤ prm.epsDualInf * norm d := mul_nonneg he (norm_nonneg _)
  by_cases h0 : d = 0
  · obtain ⟨i, a, b, hl, hu⟩ := hrow
    have := h3 i (List.mem_finRange i)
    rw [hl, hu] at this
    simp only [dualRowR, decide_eq_true_eq] at this
    have e : norm d = 0 := by
      rw [h0]
      exact QP.norm_zero
    rw [e, mul_zero, fl_zero hr] at this
    exact absurd this (not_lt.2 (abs_nonneg _))
  · obtain ⟨j, hj⟩ := hP d h0
    have g1 := (le_norm (ar.mv p.P d) j).trans h1
    have g2 := hr.mv_err p.P d j
    have g3 := hr.fl_le hn
    have := abs_sub_abs_le_abs_sub ((p.P *ᵥ d) j) (ar.mv p.P d j)
    rw [abs_sub_comm] at this
    linarith

/-- Without rounding the certificates are those of exact arithmetic. -/
theorem certificates_zero (p : Pbm F n m) (e : F) : (∀ d, ApproxFarkasR p e 0 d ↔ ApproxFarkas p e d) ∧ ∀ d, ApproxRecessionR p e 0 d ↔ ApproxRecession p e d := by
  have ha : ∀ k, amp (0 : F) k = 0 := fun k => by simp [amp]
  constructor
  · intro d
    simp only [ApproxFarkasR, ApproxFarkas, ha, zero_mul, add_zero, one_mul]
  · intro d
    simp only [ApproxRecessionR, ApproxRecession, ha, zero_mul, add_zero, one_mul]

end Verif.QP
