import Verif.Spec.PID
import Mathlib.Tactic.Linarith

/-! # Helper lemmas for the PID controller -/

set_option linter.unusedSectionVars false

namespace Verif.PID

variable {T G F : Type*} {n : ℕ} [LinearOrder T] [Field F] [LinearOrder F] [IsStrictOrderedRing F]

/-- The limit is infinite or nonnegative. -/
def LimitOk (w : Option F) : Prop := ∀ b : F, w = some b → 0 ≤ b

theorem windupClamp_eq_sat (w : Option F) (hw : LimitOk w) (i : Vec n F) :
    windupClamp w i = fun k => PIDSpec.sat w (i k) := by
  funext k
  cases w with
  | none => rfl
  | some b =>
    have hb : 0 ≤ b := hw b rfl
    show min (max (i k) (-b)) b = if i k < -b then -b else if b < i k then b else i k
    split_ifs with h1 h2
    · rw [max_eq_right h1.le, min_eq_left (by linarith)]
    · rw [max_eq_left (by linarith), min_eq_right h2.le]
    · rw [max_eq_left (not_lt.1 h1), min_eq_left (not_lt.1 h2)]

theorem sat_abs_le (b : F) (hb : 0 ≤ b) (a : F) : |PIDSpec.sat (some b) a| ≤ b := by
  show |if a < -b then -b else if b < a then b else a| ≤ b
  rw [abs_le]
  split_ifs with h1 h2
  · constructor <;> linarith
  · constructor <;> linarith
  · exact ⟨not_lt.1 h1, not_lt.1 h2⟩

theorem integral_call (env : Env T G F n) (w : Option F) (h : List (Op T G F n)) (t : T) (x : G) (v : Vec n F) :
    PIDSpec.integral env w (.call t x v :: h) =
      match PIDSpec.lastCall h with
      | none => PIDSpec.integral env w h
      | some tl =>
        if tl < t then
          fun k => PIDSpec.sat w (PIDSpec.integral env w h k
            + env.tminus t tl * env.rminus (PIDSpec.reference env h t).1 x k)
        else PIDSpec.integral env w h := rfl

theorem integral_abs_le (env : Env T G F n) (b : F) (hb : 0 ≤ b) (h : List (Op T G F n)) (k : Fin n) :
    |PIDSpec.integral env (some b) h k| ≤ b := by
  induction h with
  | nil => simpa [PIDSpec.integral] using hb
  | cons o h ih =>
    cases o with
    | call t x v =>
      rw [integral_call]
      split
      · exact ih
      · split_ifs
        · exact sat_abs_le b hb _
        · exact ih
    | resetIntegral => simpa [PIDSpec.integral] using hb
    | _ => simpa [PIDSpec.integral] using ih

/-- The abstraction function: the data members are determined by the history. -/
theorem run_eq (env : Env T G F n) (w : Option F) (hw : LimitOk w) (h : List (Op T G F n)) :
    run env (init env w) h.reverse =
      { windup := w, kp := PIDSpec.gainP h, kd := PIDSpec.gainD h, ki := PIDSpec.gainI h,
        tLast := PIDSpec.lastCall h, iErr := PIDSpec.integral env w h, xdes := PIDSpec.reference env h } := by
  induction h with
  | nil => rfl
  | cons o h ih =>
    have hr : run env (init env w) (o :: h).reverse = (step env (run env (init env w) h.reverse) o).1 := by
      simp [run, List.foldl_append]
    rw [hr, ih]
    cases o with
    | call t x v =>
      simp only [step, call, PIDSpec.gainP, PIDSpec.gainD, PIDSpec.gainI, PIDSpec.lastCall, PIDSpec.reference]
      congr 1
      rw [integral_call]
      simp only [integrate]
      cases hl : PIDSpec.lastCall h with
      | none => rfl
      | some tl => simp only [windupClamp_eq_sat w hw]
    | _ => rfl

end Verif.PID
