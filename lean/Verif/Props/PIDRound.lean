import Verif.Spec.PIDRound
import Verif.Proofs.QPRound
import Verif.Props.PID

/-! # The PID controller in rounded arithmetic (C136) -/

namespace Verif.PID

open Verif.QP (Arith Acc)
open Verif.QPSpec (Rounds amp)

variable {T G F : Type*} {n : ℕ} [LinearOrder T] [Field F] [LinearOrder F] [IsStrictOrderedRing F] {ar : Arith F} {u : F}

/-! ## The limit -/

theorem clamp_abs {b : F} (hb : 0 ≤ b) (i : Vec n F) (k : Fin n) : |windupClamp (some b) i k| ≤ b := by
  simp only [windupClamp]
  rw [abs_le]
  exact ⟨le_min (le_max_right _ _) (by linarith), min_le_right _ _⟩

theorem stepR_windup (ar : Arith F) (env : Env T G F n) (s : State T G F n) (o : Op T G F n) : (stepR ar env s o).1.windup = s.windup := by
  cases o <;> rfl

theorem integrateR_abs (ar : Arith F) (env : Env T G F n) {b : F} (hb : 0 ≤ b) {s : State T G F n} (hw : s.windup = some b) (h : ∀ k, |s.iErr k| ≤ b) (t : T) (g : Vec n F) (k : Fin n) :
    |integrateR ar env s t g k| ≤ b := by
  unfold integrateR
  cases s.tLast with
  | none => exact h k
  | some tl =>
    simp only
    rw [hw]
    split_ifs
    · exact clamp_abs hb _ k
    · exact h k

/-- **C136, limit.** Whatever the rounding does, the integral stays within the limit: for every arithmetic and every history. -/
theorem pid_bounded_any_arithmetic (ar : Arith F) (env : Env T G F n) (b : F) (hb : 0 ≤ b) (ops : List (Op T G F n)) (k : Fin n) :
    |(runR ar env (init env (some b)) ops).iErr k| ≤ b := by
  have key : ∀ (ops : List (Op T G F n)) (s : State T G F n), s.windup = some b → (∀ k, |s.iErr k| ≤ b) → ∀ k, |(runR ar env s ops).iErr k| ≤ b := by
    intro ops
    induction ops with
    | nil => intro s _ h; exact h
    | cons o ops ih =>
      intro s hw h
      refine ih (stepR ar env s o).1 ((stepR_windup ar env s o).trans hw) fun k => ?_
      cases o with
      | call t x v =>
        exact integrateR_abs ar env hb hw h t _ k
      | resetIntegral => change |(0 : F)| ≤ b; rw [abs_zero]; exact hb
      | setKp _ => exact h k
      | setKpAll _ => exact h k
      | setKd _ => exact h k
      | setKdAll _ => exact h k
      | setKi _ => exact h k
      | setKiAll _ => exact h k
      | setXdes _ => exact h k
      | setXdesSpline _ _ => exact h k
  exact key ops _ rfl (fun k => by change |(0 : F)| ≤ b; rw [abs_zero]; exact hb) k

/-! ## The distance to exact arithmetic -/

theorem clamp_nonexp (w : Option F) (i j : Vec n F) (k : Fin n) : |windupClamp w i k - windupClamp w j k| ≤ |i k - j k| := by
  cases w with
  | none => exact le_rfl
  | some b =>
    simp only [windupClamp]
    exact (abs_min_sub_min_le_max _ _ _ _).trans (max_le ((abs_max_sub_max_le_max _ _ _ _).trans (max_le le_rfl (by rw [sub_self, abs_zero]; exact abs_nonneg _)))
      (by rw [sub_self, abs_zero]; exact abs_nonneg _))

theorem two_roundings (hr : Rounds ar u) (i p : F) : |ar.fl (i + ar.fl p) - (i + p)| ≤ amp u 2 * (|i| + |p|) :=
  ((((Acc.exact u i).mono hr.nonneg (Nat.zero_le 1)).add ((Acc.exact u p).fl hr)).fl hr).1

/-- The same but for the integral, which differs by at most `δ`. -/
def Near (δ : F) (s s' : State T G F n) : Prop :=
  s.windup = s'.windup ∧ s.kp = s'.kp ∧ s.kd = s'.kd ∧ s.ki = s'.ki ∧ s.tLast = s'.tLast ∧ s.xdes = s'.xdes ∧ ∀ k, |s.iErr k - s'.iErr k| ≤ δ

theorem near_call (hr : Rounds ar u) (env : Env T G F n) {b c δ : F} (hb : 0 ≤ b) (hc : 0 ≤ c) {s s' : State T G F n} (h : Near δ s s') (hi : ∀ k, |s.iErr k| ≤ b) (t : T) (x : G)
    (v : Vec n F) (hs : ∀ tl, s'.tLast = some tl → tl < t → ∀ k, |env.tminus t tl * env.rminus (s'.xdes t).1 x k| ≤ c) :
    Near (δ + amp u 2 * (b + c)) (callR ar env s t x v).1 (call env s' t x v).1 := by
  obtain ⟨h1, h2, h3, h4, h5, h6, h7⟩ := h
  refine ⟨h1, h2, h3, h4, rfl, h6, fun k => ?_⟩
  have ha := mul_nonneg (QP.amp_nonneg hr.nonneg 2) (add_nonneg hb hc)
  change |integrateR ar env s t (env.rminus (s.xdes t).1 x) k - integrate env s' t (env.rminus (s'.xdes t).1 x) k| ≤ _
  unfold integrateR integrate
  rw [h5, h6, h1]
  cases htl : s'.tLast with
  | none => exact (h7 k).trans (by linarith)
  | some tl =>
    simp only
    split_ifs with hlt
    · refine (clamp_nonexp _ _ _ k).trans ?_
      have g1 := two_roundings hr (s.iErr k) (env.tminus t tl * env.rminus (s'.xdes t).1 x k)
      have g2 := mul_le_mul_of_nonneg_left (add_le_add (hi k) (hs tl htl hlt k)) (QP.amp_nonneg hr.nonneg 2)
      have g3 := h7 k
      rw [abs_le] at *
      constructor <;> linarith [g1.1, g1.2, g3.1, g3.2]
    · exact (h7 k).trans (by linarith)

/-- **C136, drift.** With a limit `b`, after `N` calls that each add at most `c`, the integral differs from the one of exact arithmetic by at most `N ((1 + u)^2 - 1) (b + c)`; gains, reference
and last time are the same. -/
theorem pid_drift (hr : Rounds ar u) (env : Env T G F n) {b c : F} (hb : 0 ≤ b) (hc : 0 ≤ c) (ops : List (Op T G F n)) (hs : Steps env c (init env (some b)) ops) :
    Near ((calls ops : F) * (amp u 2 * (b + c))) (runR ar env (init env (some b)) ops) (run env (init env (some b)) ops) := by
  have ha := mul_nonneg (QP.amp_nonneg hr.nonneg 2) (add_nonneg hb hc)
  have key : ∀ (ops : List (Op T G F n)) (s s' : State T G F n) (δ : F), 0 ≤ δ → Near δ s s' → s.windup = some b → (∀ k, |s.iErr k| ≤ b) → Steps env c s' ops →
      Near (δ + (calls ops : F) * (amp u 2 * (b + c))) (runR ar env s ops) (run env s' ops) := by
    intro ops
    induction ops with
    | nil =>
      intro s s' δ _ h _ _ _
      have : δ + (calls ([] : List (Op T G F n)) : F) * (amp u 2 * (b + c)) = δ := by simp [calls]
      rw [this]
      exact h
    | cons o ops ih =>
      intro s s' δ hδ h hw hi hS
      have hw' : (stepR ar env s o).1.windup = some b := (stepR_windup ar env s o).trans hw
      have hi' : ∀ k, |(stepR ar env s o).1.iErr k| ≤ b := by
        intro k
        cases o with
        | call t x v =>
          exact integrateR_abs ar env hb hw hi t _ k
        | resetIntegral => change |(0 : F)| ≤ b; rw [abs_zero]; exact hb
        | setKp _ => exact hi k
        | setKpAll _ => exact hi k
        | setKd _ => exact hi k
        | setKdAll _ => exact hi k
        | setKi _ => exact hi k
        | setKiAll _ => exact hi k
        | setXdes _ => exact hi k
        | setXdesSpline _ _ => exact hi k
      obtain ⟨g1, g2, g3, g4, g5, g6, g7⟩ := id h
      cases o with
      | call t x v =>
        have := ih _ _ _ (add_nonneg hδ ha) (near_call hr env hb hc h hi t x v (hS.1 t x v rfl)) hw' hi' hS.2
        have e : δ + (calls (Op.call t x v :: ops) : F) * (amp u 2 * (b + c)) = δ + amp u 2 * (b + c) + (calls ops : F) * (amp u 2 * (b + c)) := by
          rw [calls, Nat.cast_add, Nat.cast_one]
          ring
        rw [e]
        exact this
      | resetIntegral =>
        refine ih _ _ δ hδ ⟨g1, g2, g3, g4, g5, g6, fun k => ?_⟩ hw' hi' hS.2
        change |(0 : F) - 0| ≤ δ
        rw [sub_zero, abs_zero]
        exact hδ
      | setKp q => exact ih _ _ δ hδ ⟨g1, rfl, g3, g4, g5, g6, g7⟩ hw' hi' hS.2
      | setKpAll q => exact ih _ _ δ hδ ⟨g1, rfl, g3, g4, g5, g6, g7⟩ hw' hi' hS.2
      | setKd q => exact ih _ _ δ hδ ⟨g1, g2, rfl, g4, g5, g6, g7⟩ hw' hi' hS.2
      | setKdAll q => exact ih _ _ δ hδ ⟨g1, g2, rfl, g4, g5, g6, g7⟩ hw' hi' hS.2
      | setKi q => exact ih _ _ δ hδ ⟨g1, g2, g3, rfl, g5, g6, g7⟩ hw' hi' hS.2
      | setKiAll q => exact ih _ _ δ hδ ⟨g1, g2, g3, rfl, g5, g6, g7⟩ hw' hi' hS.2
      | setXdes q => exact ih _ _ δ hδ ⟨g1, g2, g3, g4, g5, rfl, g7⟩ hw' hi' hS.2
      | setXdesSpline q r => exact ih _ _ δ hδ ⟨g1, g2, g3, g4, g5, rfl, g7⟩ hw' hi' hS.2
  have := key ops _ (init env (some b)) 0 le_rfl ⟨rfl, rfl, rfl, rfl, rfl, rfl, fun k => by rw [sub_self, abs_zero]⟩ rfl
    (fun k => by change |(0 : F)| ≤ b; rw [abs_zero]; exact hb) hs
  rw [zero_add] at this
  exact this

theorem outputR_acc (hr : Rounds ar u) (a kp g kd vd v ki i : F) :
    |outputR ar a kp g kd vd v ki i - (a + kp * g + kd * (vd - v) + ki * i)| ≤ amp u 4 * (|a| + |kp * g| + |kd * (vd - v)| + |ki * i|) := by
  have hu := hr.nonneg
  have h1 : Acc u 1 (ar.fl (kp * g)) (kp * g) |kp * g| := (Acc.exact u _).fl hr
  have h2 : Acc u 2 (ar.fl (a + ar.fl (kp * g))) (a + kp * g) (|a| + |kp * g|) := (((Acc.exact u a).mono hu (Nat.zero_le 1)).add h1).fl hr
  have h3 : Acc u 2 (ar.fl (kd * ar.fl (vd - v))) (kd * (vd - v)) |kd * (vd - v)| := by
    rw [abs_mul]
    have := (Acc.exact u kd).mul hu ((Acc.exact u (vd - v)).fl hr)
    exact this.fl hr
  have h4 := (h2.add h3).fl hr
  have h5 : Acc u 3 (ar.fl (ki * i)) (ki * i) |ki * i| := ((Acc.exact u _).fl hr).mono hu (by omega)
  exact ((h4.add h5).fl hr).1

/-- **C136, output.** The output of a call after any such history differs from the exact one by the rounding of the four terms and the drift of the integral. -/
theorem pid_output_rounded (hr : Rounds ar u) (env : Env T G F n) {b c : F} (hb : 0 ≤ b) (hc : 0 ≤ c) (ops : List (Op T G F n)) (t : T) (x : G) (v : Vec n F)
    (hs : Steps env c (init env (some b)) (ops ++ [.call t x v])) (k : Fin n) :
    ∃ y w, (stepR ar env (runR ar env (init env (some b)) ops) (.call t x v)).2 = some y ∧ (step env (run env (init env (some b)) ops) (.call t x v)).2 = some w ∧
      |y k - w k| ≤ amp u 4 * (|((run env (init env (some b)) ops).xdes t).2.2 k| + |(run env (init env (some b)) ops).kp k * env.rminus ((run env (init env (some b)) ops).xdes t).1 x k| +
          |(run env (init env (some b)) ops).kd k * (((run env (init env (some b)) ops).xdes t).2.1 k - v k)| + |(run env (init env (some b)) ops).ki k| * b) +
        |(run env (init env (some b)) ops).ki k| * (((calls ops : F) + 1) * (amp u 2 * (b + c))) := by
  have hsplit : ∀ (ops : List (Op T G F n)) (s : State T G F n), Steps env c s (ops ++ [.call t x v]) → Steps env c s ops ∧
      ∀ tl, (run env s ops).tLast = some tl → tl < t → ∀ k, |env.tminus t tl * env.rminus ((run env s ops).xdes t).1 x k| ≤ c := by
    intro ops
    induction ops with
    | nil => intro s h; exact ⟨trivial, h.1 t x v rfl⟩
    | cons o ops ih => intro s h; exact ⟨⟨h.1, (ih _ h.2).1⟩, (ih _ h.2).2⟩
  obtain ⟨hs1, hs2⟩ := hsplit ops _ hs
  have hn := pid_drift hr env hb hc ops hs1
  set s := runR ar env (init env (some b)) ops with hsd
  set s' := run env (init env (some b)) ops
  have hi : ∀ k, |s.iErr k| ≤ b := pid_bounded_any_arithmetic ar env b hb ops
  have hcall := near_call hr env hb hc hn hi t x v hs2
  have hib : |(callR ar env s t x v).1.iErr k| ≤ b := by
    have := pid_bounded_any_arithmetic ar env b hb (ops ++ [.call t x v]) k
    rw [runR, List.foldl_append] at this
    exact this
  refine ⟨_, _, rfl, rfl, ?_⟩
  have h7 := hcall.2.2.2.2.2.2 k
  set i := (callR ar env s t x v).1.iErr k with hidef
  set i' := (call env s' t x v).1.iErr k with hi'def
  have e1 : (callR ar env s t x v).2 k = outputR ar ((s'.xdes t).2.2 k) (s'.kp k) (env.rminus (s'.xdes t).1 x k) (s'.kd k) ((s'.xdes t).2.1 k) (v k) (s'.ki k) i := by
    rw [← hn.2.1, ← hn.2.2.1, ← hn.2.2.2.1, ← hn.2.2.2.2.2.1]
    rfl
  have e2 : (call env s' t x v).2 k = (s'.xdes t).2.2 k + s'.kp k * env.rminus (s'.xdes t).1 x k + s'.kd k * ((s'.xdes t).2.1 k - v k) + s'.ki k * i' := rfl
  change |(callR ar env s t x v).2 k - (call env s' t x v).2 k| ≤ _
  rw [e1, e2]
  have g1 := outputR_acc hr ((s'.xdes t).2.2 k) (s'.kp k) (env.rminus (s'.xdes t).1 x k) (s'.kd k) ((s'.xdes t).2.1 k) (v k) (s'.ki k) i
  have g2 : |s'.ki k * i| ≤ |s'.ki k| * b := by rw [abs_mul]; exact mul_le_mul_of_nonneg_left hib (abs_nonneg _)
  have g3 : |s'.ki k * i - s'.ki k * i'| ≤ |s'.ki k| * (((calls ops : F) + 1) * (amp u 2 * (b + c))) := by
    rw [← mul_sub, abs_mul]
    refine mul_le_mul_of_nonneg_left (h7.trans (le_of_eq ?_)) (abs_nonneg _)
    ring
  have g4 := mul_le_mul_of_nonneg_left (add_le_add_left g2 (|(s'.xdes t).2.2 k| + |s'.kp k * env.rminus (s'.xdes t).1 x k| + |s'.kd k * ((s'.xdes t).2.1 k - v k)|)) (QP.amp_nonneg hr.nonneg 4)
  rw [abs_le] at g1 g3 ⊢
  constructor <;> linarith [g1.1, g1.2, g3.1, g3.2]

/-! ## The dead zone -/

/-- **C136, dead zone.** If the contributions of all calls are rounded away, the integral does not change, however many calls there are: the integral term never removes such an error. -/
theorem pid_dead_zone (ar : Arith F) (env : Env T G F n) (x : G) (v : Vec n F) (times : List T) : ∀ (s : State T G F n) (t0 : T), s.tLast = some t0 → windupClamp s.windup s.iErr = s.iErr →
    Lost ar env s x t0 times → (runR ar env s (times.map fun t => .call t x v)).iErr = s.iErr := by
  induction times with
  | nil => intro s t0 _ _ _; rfl
  | cons t ts ih =>
    intro s t0 h0 hc hl
    have e : (callR ar env s t x v).1.iErr = s.iErr := by
      change integrateR ar env s t (env.rminus (s.xdes t).1 x) = s.iErr
      unfold integrateR
      rw [h0]
      simp only
      split_ifs
      · have : (fun k => ar.fl (s.iErr k + ar.fl (env.tminus t t0 * env.rminus (s.xdes t).1 x k))) = s.iErr := funext hl.1
        rw [this, hc]
      · rfl
    have hl' : ∀ (ts : List T) (tl : T), Lost ar env s x tl ts → Lost ar env (callR ar env s t x v).1 x tl ts := by
      intro ts
      induction ts with
      | nil => intro _ _; trivial
      | cons t' ts ih' =>
        intro tl h
        refine ⟨fun k => ?_, ih' t' h.2⟩
        rw [e]
        exact h.1 k
    have := ih (callR ar env s t x v).1 t rfl (by rw [e]; exact hc) (hl' ts t hl.2)
    rw [List.map_cons, runR, List.foldl_cons]
    exact this.trans e

/-! ## Without rounding -/

/-- **C136** Without rounding the second model is the first one: same state and same output after every operation. -/
theorem pid_rounded_exact (env : Env T G F n) (s : State T G F n) (o : Op T G F n) (ops : List (Op T G F n)) :
    stepR Arith.exact env s o = step env s o ∧ runR Arith.exact env s ops = run env s ops := by
  have key : ∀ s : State T G F n, stepR Arith.exact env s = step env s := by
    intro s
    funext o
    cases o <;> rfl
  refine ⟨congrFun (key s) o, ?_⟩
  unfold runR run
  simp only [key]

end Verif.PID
