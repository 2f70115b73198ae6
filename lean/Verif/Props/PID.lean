import Verif.Proofs.PID
import Mathlib.Tactic.NormNum
import Mathlib.Tactic.Positivity
import Mathlib.Tactic.Ring
import Mathlib.Data.Rat.Defs
import Mathlib.Algebra.Order.Ring.Rat

/-!
# Properties of the PID controller (C56, C57, C58)

Histories `h` are newest first; `h.reverse` is what the controller executed.
-/

set_option linter.unusedSectionVars false

namespace Verif.PID

variable {T G F : Type*} {n : ℕ} [LinearOrder T] [Field F] [LinearOrder F] [IsStrictOrderedRing F]

/-- **C56** After any history of public calls (times may be in any order) every component of the integral
state is at most the (nonnegative) windup limit in magnitude. -/
theorem pid_integral_bounded (env : Env T G F n) (b : F) (hb : 0 ≤ b) (ops : List (Op T G F n)) (k : Fin n) :
    |(run env (init env (some b)) ops).iErr k| ≤ b := by
  have h := run_eq env (some b) (fun c hc => by cases hc; exact hb) ops.reverse
  rw [List.reverse_reverse] at h
  rw [h]
  exact integral_abs_le env b hb _ k

/-- **C56**, observable form: the output of a control call deviates from the proportional-derivative
law by at most `|ki| * limit`. -/
theorem pid_integral_term_bounded (env : Env T G F n) (b : F) (hb : 0 ≤ b) (ops : List (Op T G F n))
    (t : T) (x : G) (v : Vec n F) (k : Fin n) (u : Vec n F)
    (hu : (step env (run env (init env (some b)) ops) (.call t x v)).2 = some u) :
    let s := run env (init env (some b)) ops
    let r := s.xdes t
    |u k - (r.2.2 k + s.kp k * env.rminus r.1 x k + s.kd k * (r.2.1 k - v k))| ≤ |s.ki k| * b := by
  intro s r
  have h := pid_integral_bounded env b hb (ops ++ [.call t x v]) k
  have hrun : run env (init env (some b)) (ops ++ [.call t x v]) = (step env s (.call t x v)).1 := by
    simp [run, s, List.foldl_append]
  rw [hrun] at h
  simp only [step, Option.some.injEq] at hu
  subst hu
  have he : (call env s t x v).2 k - (r.2.2 k + s.kp k * env.rminus r.1 x k + s.kd k * (r.2.1 k - v k))
      = s.ki k * ((step env s (.call t x v)).1.iErr k) := by
    simp only [call, step, r]; ring
  show |(call env s t x v).2 k - _| ≤ _
  rw [he, abs_mul]
  exact mul_le_mul_of_nonneg_left h (abs_nonneg _)

/-- **C57** The control law: for every history and every call, the output is
feed-forward + kp * error + kd * velocity error + ki * integral, with the gains, reference and
(saturated) error integral determined by the history as in `PIDSpec`. -/
theorem pid_output_law (env : Env T G F n) (w : Option F) (hw : LimitOk w) (h : List (Op T G F n))
    (t : T) (x : G) (v : Vec n F) :
    (step env (run env (init env w) h.reverse) (.call t x v)).2 = some (PIDSpec.output env w h t x v) := by
  have h1 := run_eq env w hw (.call t x v :: h)
  have h2 : run env (init env w) (Op.call t x v :: h).reverse
      = (step env (run env (init env w) h.reverse) (.call t x v)).1 := by
    simp [run, List.foldl_append]
  rw [h2] at h1
  have h3 := congrArg State.iErr h1
  simp only [step, call] at h3 ⊢
  congr 1
  funext k
  rw [h3, run_eq env w hw h]
  rfl

/-- Operations that change only gains. -/
def IsGainOp : Op T G F n → Bool
  | .setKp _ | .setKpAll _ | .setKd _ | .setKdAll _ | .setKi _ | .setKiAll _ => true
  | _ => false

/-- **C57** Changing gains at any point never disturbs the integral (nor the stored time): deleting all
gain changes from a history leaves them the same. -/
theorem pid_gains_do_not_disturb_integral (env : Env T G F n) (w : Option F) (hw : LimitOk w)
    (h : List (Op T G F n)) :
    (run env (init env w) h.reverse).iErr
      = (run env (init env w) (h.filter (fun o => !IsGainOp o)).reverse).iErr ∧
    (run env (init env w) h.reverse).tLast
      = (run env (init env w) (h.filter (fun o => !IsGainOp o)).reverse).tLast := by
  rw [run_eq env w hw, run_eq env w hw]
  simp only
  have key : PIDSpec.lastCall h = PIDSpec.lastCall (h.filter (fun o => !IsGainOp o)) ∧
      PIDSpec.reference env h = PIDSpec.reference env (h.filter (fun o => !IsGainOp o)) ∧
      PIDSpec.integral env w h = PIDSpec.integral env w (h.filter (fun o => !IsGainOp o)) := by
    induction h with
    | nil => exact ⟨rfl, rfl, rfl⟩
    | cons o h ih =>
      obtain ⟨h1, h2, h3⟩ := ih
      cases o <;>
        first
        | rw [List.filter_cons_of_neg (by simp [IsGainOp])]; exact ⟨h1, h2, h3⟩
        | rw [List.filter_cons_of_pos rfl]
          simp [PIDSpec.lastCall, PIDSpec.reference, integral_call, PIDSpec.integral, ← h1, ← h2, ← h3]
  exact ⟨key.2.2, key.1⟩

/-- **C57** A controller on its reference (zero error) and matching velocity outputs exactly the
feed-forward acceleration plus the integral term, and its integral is unchanged if the limit allows. -/
theorem pid_zero_error (env : Env T G F n) (w : Option F) (hw : LimitOk w) (h : List (Op T G F n))
    (t : T) (x : G) (v : Vec n F)
    (hx : env.rminus (PIDSpec.reference env h t).1 x = 0) (hv : (PIDSpec.reference env h t).2.1 = v)
    (k : Fin n) :
    PIDSpec.output env w h t x v k
        = (PIDSpec.reference env h t).2.2 k + PIDSpec.gainI h k * PIDSpec.integral env w h k ∧
    (run env (init env w) (.call t x v :: h).reverse).iErr = (run env (init env w) h.reverse).iErr := by
  have hI : PIDSpec.integral env w (.call t x v :: h) = PIDSpec.integral env w h := by
    rw [integral_call]
    cases PIDSpec.lastCall h with
    | none => rfl
    | some tl =>
      simp only [hx]
      split_ifs
      · funext k
        simp only [Pi.zero_apply, mul_zero, add_zero]
        cases w with
        | none => rfl
        | some b =>
          have := abs_le.1 (integral_abs_le env b (hw b rfl) h k)
          simp [PIDSpec.sat, not_lt.2 this.1, not_lt.2 this.2]
      · rfl
  constructor
  · simp [PIDSpec.output, hx, hv, hI]
  · rw [run_eq env w hw, run_eq env w hw]; exact hI

/-- Times of the control calls of a history, newest first. -/
def callTimes : List (Op T G F n) → List T
  | [] => []
  | .call t _ _ :: h => t :: callTimes h
  | _ :: h => callTimes h

/-- The environment with clock readings in `F` and plain subtraction. -/
def RealTime (env : Env F G F n) : Prop := ∀ a b, env.tminus a b = a - b

/-- Along the history every error seen by a control call has all components bounded by `B`. -/
def ErrBounded (env : Env T G F n) (B : F) : List (Op T G F n) → Prop
  | [] => True
  | .call t x _ :: h => (∀ k, |env.rminus (PIDSpec.reference env h t).1 x k| ≤ B) ∧ ErrBounded env B h
  | _ :: h => ErrBounded env B h

theorem lastCall_eq_head (h : List (Op T G F n)) : PIDSpec.lastCall h = (callTimes h).head? := by
  induction h with
  | nil => rfl
  | cons o h ih => cases o <;> simp [PIDSpec.lastCall, callTimes, ih]

theorem sat_abs_le_abs (w : Option F) (hw : LimitOk w) (a : F) : |PIDSpec.sat w a| ≤ |a| := by
  cases w with
  | none => exact le_rfl
  | some b =>
    have hb := hw b rfl
    show |if a < -b then -b else if b < a then b else a| ≤ |a|
    split_ifs with h1 h2
    · rw [abs_neg, abs_of_nonneg hb, abs_of_neg (by linarith)]; linarith
    · rw [abs_of_nonneg hb, abs_of_nonneg (by linarith)]; exact h2.le
    · exact le_rfl

/-- **C58** (partial).  FULL CLAIM: for *every* sequence of call times the integral accounts for at most the
time between the earliest and the latest call; that is false, see
`pid_counts_time_twice_when_clock_goes_back`.  Proved: if call times never decrease, and the error is bounded by `B`, the
integral is at most `B * (latest call - earliest call)`.  Missing: clocks that go backwards. -/
theorem pid_integrates_elapsed_time_once_partial (env : Env F G F n) (hrt : RealTime env) (w : Option F) (hw : LimitOk w)
    (B : F) (h : List (Op F G F n)) (hB : ErrBounded env B h)
    (hmono : (callTimes h).Pairwise (fun later earlier => earlier ≤ later))
    (tLatest tEarliest : F) (h1 : (callTimes h).head? = some tLatest)
    (h2 : (callTimes h).getLast? = some tEarliest) (k : Fin n) :
    |(run env (init env w) h.reverse).iErr k| ≤ B * (tLatest - tEarliest) := by
  rw [run_eq env w hw]
  show |PIDSpec.integral env w h k| ≤ _
  induction h generalizing tLatest with
  | nil => simp [callTimes] at h1
  | cons o h ih =>
    cases o with
    | call t x v =>
      simp only [callTimes, List.head?_cons, Option.some.injEq] at h1
      subst h1
      obtain ⟨hBt, hBh⟩ := hB
      simp only [callTimes, List.pairwise_cons] at hmono
      rw [integral_call, lastCall_eq_head]
      cases hc : (callTimes h).head? with
      | none =>
        have hnil : callTimes h = [] := List.head?_eq_none_iff.1 hc
        simp only [callTimes, hnil, List.getLast?_singleton, Option.some.injEq] at h2
        subst h2
        have hz : PIDSpec.integral env w h k = 0 := by
          clear ih hmono hBt hBh hc
          induction h with
          | nil => rfl
          | cons o h ih => cases o <;> simp_all [callTimes, PIDSpec.integral]
        simp [hz]
      | some tl =>
        have hne : callTimes h ≠ [] := by intro he; simp [he] at hc
        have h2' : (callTimes h).getLast? = some tEarliest := by
          simp only [callTimes] at h2
          rw [List.getLast?_cons_of_ne_nil hne] at h2
          exact h2
        have ih' := ih hBh hmono.2 tl hc h2'
        have htl : tl ≤ t := hmono.1 tl (List.mem_of_mem_head? (by rw [hc]; rfl))
        simp only
        have hBnn : 0 ≤ B := le_trans (abs_nonneg _) (hBt k)
        split_ifs with hlt
        · refine le_trans (sat_abs_le_abs w hw _) ?_
          refine le_trans (abs_add_le _ _) ?_
          rw [hrt, abs_mul, abs_of_nonneg (sub_nonneg.2 htl)]
          have := mul_le_mul_of_nonneg_left (hBt k) (sub_nonneg.2 htl)
          nlinarith
        · have : tl = t := le_antisymm htl (not_lt.1 hlt)
          subst this
          exact ih'
    | resetIntegral =>
      have hBnn : 0 ≤ B ∨ callTimes h = [] := by
        clear ih hmono h1 h2
        induction h with
        | nil => right; rfl
        | cons o h ih =>
          cases o with
          | call t x v => left; exact le_trans (abs_nonneg _) (hB.1 k)
          | _ => exact ih hB
      rcases hBnn with hBnn | hnil
      · have : tEarliest ≤ tLatest := by
          have hm := hmono
          simp only [callTimes] at hm h1 h2
          cases hct : callTimes h with
          | nil => simp [hct] at h1
          | cons a l =>
            rw [hct] at hm h1 h2
            simp only [List.head?_cons, Option.some.injEq] at h1
            subst h1
            rcases List.mem_cons.1 (List.mem_of_getLast? h2) with h | h
            · exact h.le
            · exact (List.pairwise_cons.1 hm).1 _ h
        simpa [PIDSpec.integral] using mul_nonneg hBnn (sub_nonneg.2 this)
      · simp [callTimes, hnil] at h1
    | _ => exact ih hB hmono tLatest h1 h2

/-- A scalar controller on the rationals. -/
def demoEnv : Env ℚ ℚ ℚ 1 := { rminus := fun a b _ => a - b, tminus := fun a b => a - b, identity := 0 }

/-- Constant state `-1`, reference `0`, so the error is always one; the clock reads 0, 1, 0, 1. -/
def backwardsHistory : List (Op ℚ ℚ ℚ 1) :=
  [.call 0 (-1) ![0], .call 1 (-1) ![0], .call 0 (-1) ![0], .call 1 (-1) ![0]]

/-- **C58 is false of the code**: with a clock that goes back, one unit of time is integrated twice (error is
constantly one, all calls lie in `[0,1]`, the integral is two): `t_last` follows the clock backwards. -/
theorem pid_counts_time_twice_when_clock_goes_back :
    (run demoEnv (init demoEnv none) backwardsHistory).iErr 0 = 2 := by
  norm_num [run, backwardsHistory, step, call, integrate, init, demoEnv, windupClamp]

/-- A negative limit is accepted by the code and pins the integral at the (negative) limit. -/
theorem pid_negative_limit_pins_integral (env : Env T G F n) (b : F) (hb : b < 0) (s : State T G F n)
    (hs : s.windup = some b) (tl t : T) (h1 : s.tLast = some tl) (h2 : tl < t) (x : G) (v : Vec n F) (k : Fin n) :
    (call env s t x v).1.iErr k = b := by
  simp only [call, integrate, h1, h2, if_true, hs, windupClamp]
  exact min_eq_right (le_trans (by linarith) (le_max_right _ _))

/-! ### Non-vacuity -/

/-- A history with saturation, a reset, gain and reference changes. -/
def demoHistory : List (Op ℚ ℚ ℚ 1) :=
  [.call 0 (-1) ![0], .call 2 (-1) ![0], .setKiAll 3, .call 9 (-1) ![0], .setKp ![2], .call 10 (-2) ![1]]

example : (run demoEnv (init demoEnv (some 5)) demoHistory).iErr 0 = 5 := by
  norm_num [run, demoHistory, step, call, integrate, init, demoEnv, windupClamp]

example : LimitOk (some (5 : ℚ)) := fun b hb => by cases hb; norm_num

/-- `pid_output_law` on a concrete history: 0 + 2*2 + 1*(0-1) + 3*5 = 18. -/
example : (step demoEnv (run demoEnv (init demoEnv (some 5)) (demoHistory.take 5)) (.call 10 (-2) ![1])).2
    = some (fun _ => 18) := by
  norm_num [run, demoHistory, step, call, integrate, init, demoEnv, windupClamp, Fin.forall_fin_one, funext_iff]

/-- Hypotheses of the elapsed-time bound on a concrete history. -/
example : RealTime demoEnv ∧ ErrBounded demoEnv 2 demoHistory.reverse ∧
    (callTimes demoHistory.reverse).Pairwise (fun a b => b ≤ a) ∧
    (callTimes demoHistory.reverse).head? = some 10 ∧ (callTimes demoHistory.reverse).getLast? = some 0 := by
  refine ⟨fun _ _ => rfl, ?_, ?_, rfl, rfl⟩ <;>
    norm_num [demoHistory, ErrBounded, demoEnv, PIDSpec.reference, callTimes]

end Verif.PID
