import Verif.Proofs.Frame
import Mathlib.Analysis.Calculus.FDeriv.Basic
import Mathlib.Data.Matrix.Mul
import Mathlib.Data.Fin.VecNotation
import Mathlib.Data.Rat.Defs
import Mathlib.Algebra.Order.Ring.Rat

/-! # C117: controller, observer and safety filter do not depend on the frame of reference -/

universe v

namespace Verif.Frame

variable {X F : Type*} {n : ℕ}

/-- Left translations of a group and shifts of time are frames for the controller. -/
theorem pid_left {T : Type*} [Group X] [AddCommGroup T] [LinearOrder T] [IsOrderedAddMonoid T] (env : PID.Env T X F n) (log : X → Fin n → F)
    (hr : ∀ x y, env.rminus x y = log (y⁻¹ * x)) (c : T) (ht : ∀ s t, env.tminus (s + c) (t + c) = env.tminus s t) (g : X) :
    PID.IsFrame env env (leftMul g) (· + c) where
  rminus x y := by rw [hr, hr, leftMul, leftMul, mul_inv_rev, mul_assoc, inv_mul_cancel_left]
  tminus s t := ht s t
  lt s t := add_lt_add_iff_right c

/-- Left translations of a group are frames for the observer. -/
theorem ekf_left {F : Type v} [Semigroup X] (env : EKF.Env X F n) (exp : (Fin n → F) → X)
    (hr : ∀ x v, env.rplus x v = x * exp v) (g : X) : EKF.IsFrame env env (leftMul g) where
  rplus x v := by rw [hr, hr, leftMul, leftMul, mul_assoc]
  ad := rfl
  tab := rfl
  solve _ _ := rfl

/-- Left translations of the state are frames for the safety filter. -/
theorem asif_left {U : Type*} {nu : ℕ} [Semigroup X] (env : ASIF.Env X U F n nu) (exp : (Fin n → F) → X)
    (hr : ∀ x v, env.xplus x v = x * exp v) (g : X) : ASIF.IsFrame env env (leftMul g) id where
  xplus x v := by rw [hr, hr, leftMul, leftMul, mul_assoc]
  ad := rfl
  uplus _ _ := rfl
  uminus _ _ := rfl

/-- Right derivatives do not depend on the frame: the hypotheses on the derivatives below follow from those on the functions. -/
theorem derivative_moved {X' V : Type*} [NormedAddCommGroup V] [NormedSpace ℝ V] {e : X → X'} {rplus : X → (Fin n → ℝ) → X}
    {rplus' : X' → (Fin n → ℝ) → X'} (he : ∀ x v, rplus' (e x) v = e (rplus x v)) {f : X → V} {f' : X' → V} (hf : ∀ x, f' (e x) = f x) {x : X}
    {D D' : (Fin n → ℝ) →L[ℝ] V} (h : HasFDerivAt (fun v => f (rplus x v)) D 0) (h' : HasFDerivAt (fun v => f' (rplus' (e x) v)) D' 0) : D' = D := by
  simp only [he, hf] at h'
  exact h'.unique h

end Verif.Frame

namespace Verif.PID

variable {T G T' G' F : Type*} {n : ℕ} [LinearOrder T] [LinearOrder T'] [Field F] [LinearOrder F]

/-- The controller: two histories that differ by a change of frame and of clock give the same inputs, whatever they consist of, provided
that a reference is set before the first call (or the frame keeps the default reference). -/
theorem pid_frame {env : Env T G F n} {env' : Env T' G' F n} {e : G → G'} {τ : T → T'} (hf : IsFrame env env' e τ) (w : Option F)
    (ops : List (Op T G F n)) (ops' : List (Op T' G' F n)) (h : List.Forall₂ (Moved e τ) ops ops')
    (hr : env'.identity = e env.identity ∨ Referred ops) :
    outputs env' (init env' w) ops' = outputs env (init env w) ops ∧ (run env' (init env' w) ops').iErr = (run env (init env w) ops).iErr :=
  outputs_rel hf (r := env'.identity = e env.identity) ⟨rfl, rfl, rfl, rfl, rfl, rfl, fun hi t => by simp only [init, hi]⟩ h hr

end Verif.PID

namespace Verif.EKF

variable {G G' : Type*} {F : Type v} {n : ℕ} [Field F] [LinearOrder F]

/-- The observer: after a reset, two histories that differ by a change of frame give estimates that differ by the change of frame, and the
same covariance; one does not return exactly when the other does not. -/
theorem ekf_frame {env : Env G F n} {env' : Env G' F n} {e : G → G'} (hf : IsFrame env env' e) (fuel : ℕ) (s : State G F n) (s' : State G' F n)
    (g : G) (P : Mat n n F) (ops : List (Op G F n)) (ops' : List (Op G' F n)) (h : List.Forall₂ (Moved e) ops ops') :
    run env' fuel s' (.reset (e g) P :: ops') = (run env fuel s (.reset g P :: ops)).map fun r => ⟨e r.g, r.P⟩ :=
  run_moved hf fuel ⟨g, P⟩ h

end Verif.EKF

namespace Verif.ASIF

variable {X X' U U' F : Type*} {nx nu : ℕ} [Field F] [LinearOrder F]

/-- The safety filter: two histories of calls that differ by a change of frame give inputs that differ by the change of frame, and the same
codes, for every solver and also when solves fail or start from an earlier solution. -/
theorem asif_frame {env : Env X U F nx nu} {env' : Env X' U' F nx nu} {e : X → X'} {eu : U → U'} (hf : IsFrame env env' e eu) (solver : Solver F)
    (fuel : ℕ) (d : Dyn X U F nx nu) (d' : Dyn X' U' F nx nu) (hd : d.Moved e eu d') (prm : FPrm U F nu) (l : List (Call X U F nx))
    (l' : List (Call X' U' F nx)) (h : List.Forall₂ (Call.Moved e eu) l l') :
    answers env' solver fuel l' (.new d' (prm.moved eu)) = (answers env solver fuel l (.new d prm)).map fun r => (eu r.1, r.2) :=
  answers_moved hf solver fuel ⟨hd, rfl, rfl, rfl⟩ h

end Verif.ASIF

/-! ### A group that is not commutative: unipotent matrices -/

namespace Verif.Frame

/-- The matrix `[1 x₀ x₂; 0 1 x₁; 0 0 1]`. -/
abbrev H := Fin 3 → ℚ
def hmul (x y : H) : H := ![x 0 + y 0, x 1 + y 1, x 2 + y 2 + x 0 * y 1]
def hinv (x : H) : H := ![-x 0, -x 1, x 0 * x 1 - x 2]
def hexp (v : H) : H := ![v 0, v 1, v 2 + v 0 * v 1 / 2]
def hlog (x : H) : H := ![x 0, x 1, x 2 - x 0 * x 1 / 2]
def had (a : H) : Matrix (Fin 3) (Fin 3) ℚ := !![0, 0, 0; 0, 0, 0; -a 1, a 0, 0]

/-- A translation that does not commute with the motions. -/
def hg : H := ![1, 2, 3]

theorem hmul_assoc (x y z : H) : hmul (hmul x y) z = hmul x (hmul y z) := by
  funext k
  fin_cases k <;> simp [hmul] <;> ring

theorem hdiff (g x y : H) : hmul (hinv (hmul g y)) (hmul g x) = hmul (hinv y) x := by
  funext k
  fin_cases k <;> simp [hmul, hinv] <;> ring

theorem hback (x : H) : hmul (hinv hg) (hmul hg x) = x := by
  funext k
  fin_cases k <;> simp [hmul, hinv, hg] <;> ring

section

open PID

def hpid : PID.Env ℚ H ℚ 3 := ⟨fun x y => hlog (hmul (hinv y) x), fun s t => s - t, 0⟩

/-- The frame and a clock that is four seconds ahead. -/
theorem hpid_frame : PID.IsFrame hpid hpid (hmul hg) (· + 4) where
  rminus x y := by simp only [hpid, hdiff]
  tminus s t := by simp only [hpid]; ring
  lt s t := add_lt_add_iff_right _

def hops : List (PID.Op ℚ H ℚ 3) :=
  [.setKiAll 1, .setXdesSpline 0 fun s => (![s, 0, s], ![1, 0, 1], 0), .call 1 ![0, 1, 0] 0, .call 2 ![1, 1, 0] ![1, 0, 0]]
def hops' : List (PID.Op ℚ H ℚ 3) :=
  [.setKiAll 1, .setXdesSpline (0 + 4) fun s => (hmul hg ![s, 0, s], ![1, 0, 1], 0), .call (1 + 4) (hmul hg ![0, 1, 0]) 0,
    .call (2 + 4) (hmul hg ![1, 1, 0]) ![1, 0, 0]]

/-- The hypotheses of `pid_frame` are met by a history in which the integral grows; the inputs are not zero. -/
example : List.Forall₂ (PID.Moved (hmul hg) (· + 4)) hops hops' ∧ PID.Referred hops ∧
    PID.outputs hpid (PID.init hpid none) hops = [none, none, some ![2, -1, 5 / 2], some ![2, -2, 8]] ∧
    PID.outputs hpid (PID.init hpid none) hops' = [none, none, some ![2, -1, 5 / 2], some ![2, -2, 8]] := by
  refine ⟨.cons (.setKiAll 1) (.cons (.setXdesSpline 0 _ _ fun _ => rfl) (.cons (.call 1 _ _) (.cons (.call 2 _ _) .nil))), ?_, ?_, ?_⟩
  · intro pre o post h hc
    match pre, h with
    | [], h => cases h; cases hc
    | [_], h => cases h; cases hc
    | a :: b :: l, h =>
      refine ⟨b, by simp, ?_⟩
      simp only [hops, List.cons_append, List.cons.injEq] at h
      rw [← h.2.1]
      rfl
  · decide +kernel
  · decide +kernel

end

section

def hekf : EKF.Env H ℚ 3 := ⟨EKF.Tableau.euler, fun x v => hmul x (hexp v), had, 0, fun {m} S B => if h : m = 1 then fun i j => B i j / S ⟨0, by omega⟩ ⟨0, by omega⟩ else B⟩

theorem hekf_frame : EKF.IsFrame hekf hekf (hmul hg) where
  rplus _ _ := hmul_assoc _ _ _
  ad := rfl
  tab := rfl
  solve _ _ := rfl

/-- Constant velocity in the body, and a measurement of the third component in the first frame. -/
def hdyn : EKF.Dyn H ℚ 3 := ⟨fun _ _ => ![1, 1, 0], fun _ _ => 0⟩
def hmeas : EKF.Meas H ℚ 3 := ⟨1, ℚ, fun x => x 2, fun x => !![0, x 0, 1], fun a b => ![a - b], 2⟩
def hmeas' : EKF.Meas H ℚ 3 := ⟨1, ℚ, fun x => hmul (hinv hg) x 2, fun x => !![0, hmul (hinv hg) x 0, 1], fun a b => ![a - b], 2⟩

/-- The hypotheses of `ekf_frame` are met by a prediction and an update; the estimate moves away from a prediction. -/
example : List.Forall₂ (EKF.Moved (hmul hg)) [.predict hdyn 1 1 none, .update hmeas 1] [.predict hdyn 1 1 none, .update hmeas' 1] ∧
    ((EKF.run hekf 9 (EKF.init hekf) [.reset 0 1, .predict hdyn 1 1 none, .update hmeas 1]).map fun r => r.g) =
      some ![3 / 2, 3 / 2, 13 / 8] := by
  refine ⟨.cons (.predict _ _ _ _ _ ⟨fun _ _ => rfl, fun _ _ => rfl⟩) (.cons ?_ .nil), ?_⟩
  · exact .update id _ _ _ _ _ _ _ _ (fun x => by rw [hback]; rfl) (fun x => by rw [hback]) fun _ _ => rfl
  · decide +kernel

end

section

def hasif : ASIF.Env H (Fin 1 → ℚ) ℚ 3 1 := ⟨fun x v => hmul x (hexp v), had, fun u v => u + v, fun u v => u - v⟩

theorem hasif_frame : ASIF.IsFrame hasif hasif (hmul hg) id where
  xplus _ _ := hmul_assoc _ _ _
  ad := rfl
  uplus _ _ := rfl
  uminus _ _ := rfl

/-- A vehicle that moves along its first axis and is steered by the second; the barrier is the third component in the first frame. -/
def hveh : ASIF.Dyn H (Fin 1 → ℚ) ℚ 3 1 := ⟨fun _ u => ![1, u 0, 0], fun _ _ => !![0; 1; 0]⟩
def hback1 : ASIF.Backup H (Fin 1 → ℚ) ℚ 3 := ⟨fun _ _ => ![1], fun _ _ => 0⟩
def hcall : ASIF.Call H (Fin 1 → ℚ) ℚ 3 := ⟨![1, 0, 1], ![-1], ⟨1, fun _ x => ![x 2], fun _ _ => 0, fun _ x => !![0, x 0, 1]⟩, hback1⟩
def hcall' : ASIF.Call H (Fin 1 → ℚ) ℚ 3 := ⟨hmul hg ![1, 0, 1], ![-1],
  ⟨1, fun _ x => ![hmul (hinv hg) x 2], fun _ _ => 0, fun _ x => !![0, hmul (hinv hg) x 0, 1]⟩, hback1⟩
def hprm : ASIF.FPrm (Fin 1 → ℚ) ℚ 1 := ⟨1, 1, 1, ⟨1, 1, 0, fun _ => .fin (-1), fun _ => .fin 1⟩, ⟨2, 1, 1, 1⟩⟩

/-- A solver that returns numbers of the last barrier row. -/
def hsolver : ASIF.Solver ℚ := fun qp _ =>
  some ⟨.optimal, ⟨2, fun _ => qp.A.val 1 0 + (match qp.l.val 1 with | .fin a => a | _ => 0)⟩, ⟨0, fun _ => 0⟩⟩

/-- The hypotheses of `asif_frame` are met. -/
example : hveh.Moved (hmul hg) id hveh ∧ List.Forall₂ (ASIF.Call.Moved (hmul hg) id) [hcall, hcall] [hcall', hcall'] ∧
    ASIF.answers hasif hsolver 9 [hcall] (.new hveh hprm) = [(![-9 / 8], .optimal)] := by
  have h : ASIF.Call.Moved (hmul hg) id hcall hcall' := .mk _ _ _ _ _ _ _ _ _ _ _ (fun _ x => by rw [hback]) (fun _ _ => rfl)
    (fun _ x => by rw [hback]) (fun _ _ => rfl) fun _ _ => rfl
  refine ⟨⟨fun _ _ => rfl, fun _ _ => rfl⟩, .cons h (.cons h .nil), ?_⟩
  decide +kernel

end

end Verif.Frame
