import Verif.Model.EKF
import Verif.Model.QPRound

/-!
# The Kalman filter in rounded arithmetic (include/smooth/feedback/ekf.hpp)

The functions of `Model/EKF.lean` once more, with a rounding after every operation in the order in which the code writes them; the arithmetic is
`Verif.QP.Arith`. Simplifications: no overflow and no NaN; Eigen's products are a parameter (every column of a product of
matrices is a matrix-vector product); what the group, the derivative oracle and `ldlt().solve` return is arbitrary.
-/

namespace Verif.EKF

open Matrix Verif.QP

universe v

variable {G : Type*} {F : Type v} {n : ℕ} [Field F] [LinearOrder F]

/-- Product of two matrices, column by column. -/
def mulR (ar : Arith F) {k l r : ℕ} (A : Mat k l F) (B : Mat l r F) : Mat k r F := fun i j => ar.mv A (fun a => B a j) i

/-- Right-hand side `cov_ode`, ekf.hpp:84-89. -/
def covRhsR (ar : Arith F) (env : Env G F n) (d : Dyn G F n) (Q : Mat n n F) (g : G) (t : F) (cov : Mat n n F) : Mat n n F :=
  let A : Mat n n F := fun i j => ar.fl (-env.ad (d.f t g) i j + d.df t g i j)
  symU fun i j => ar.fl (ar.fl (mulR ar A cov i j + mulR ar cov Aᵀ i j) + Q i j)

/-- `x + w1 * k1 + w2 * k2 + …`, from left to right (boost, external). -/
def addTerms (ar : Arith F) (x : F) : List F → List F → F
  | w :: ws, k :: ks => addTerms ar (ar.fl (x + ar.fl (w * k))) ws ks
  | _, _ => x

/-- `w1 * k1 + w2 * k2 + …`, from left to right. -/
def sumTerms (ar : Arith F) : List F → List F → F
  | w :: ws, k :: ks => addTerms ar (ar.fl (w * k)) ws ks
  | _, _ => 0

/-- `dt * w1, dt * w2, …` -/
def weightsR (ar : Arith F) (dt : F) (ws : List F) : List F := ws.map fun w => ar.fl (dt * w)

/-- The covariance plus a combination of slopes. -/
def covAdd (ar : Arith F) (dt : F) (P : Mat n n F) (ws : List F) (ks : List (Mat n n F)) : Mat n n F :=
  fun i j => addTerms ar (P i j) (weightsR ar dt ws) (ks.map fun k => k i j)

/-- The estimate plus a combination of slopes. -/
def stateAdd (ar : Arith F) (env : Env G F n) (dt : F) (g : G) (ws : List F) (ks : List (Vec n F)) : G :=
  env.rplus g fun i => sumTerms ar (weightsR ar dt ws) (ks.map fun k => k i)

/-- The slopes of all stages, given those of the first ones (boost, external). -/
def slopesR (ar : Arith F) {S V : Type*} (rhs : F → S → V) (add : List F → List V → S) (t dt : F) : List (F × List F) → List V → List V
  | [], ks => ks
  | (c, a) :: l, ks => slopesR ar rhs add t dt l (ks ++ [rhs (ar.fl (t + ar.fl (c * dt))) (add a ks)])

/-- `do_step(ode, x, t, dt)` (boost, external). -/
def doStepR (ar : Arith F) (tab : Tableau F) {S V : Type*} (rhs : F → S → V) (add : List F → List V → S) (x : S) (t dt : F) : S :=
  add tab.weights (slopesR ar rhs add t dt tab.stages [rhs t x])

/-- One step of length `dt` from time `t`: covariance first, then state, ekf.hpp:95-96 and 101-102. -/
def odeStepR (ar : Arith F) (env : Env G F n) (d : Dyn G F n) (Q : Mat n n F) (s : State G F n) (t dt : F) : State G F n where
  g := doStepR ar env.tab d.f (stateAdd ar env dt s.g) s.g t dt
  P := doStepR ar env.tab (covRhsR ar env d Q s.g) (covAdd ar dt s.P) s.P t dt

/-- The `while (t + dt_v < tau)` loop, ekf.hpp:93-98; `none` when the fuel runs out before the loop exits. -/
def predictLoopR (ar : Arith F) (env : Env G F n) (d : Dyn G F n) (Q : Mat n n F) (tau dtv : F) :
    ℕ → F → State G F n → Option (F × State G F n)
  | 0, _, _ => none
  | fuel + 1, t, s =>
    if ar.fl (t + dtv) < tau then predictLoopR ar env d Q tau dtv fuel (ar.fl (t + dtv)) (odeStepR ar env d Q s t dtv)
    else some (t, s)

/-- `predict`, ekf.hpp:80-103. -/
def predictR (ar : Arith F) (env : Env G F n) (d : Dyn G F n) (Q : Mat n n F) (tau : F) (dt : Option F) (fuel : ℕ)
    (s : State G F n) : Option (State G F n) :=
  match predictLoopR ar env d Q tau (dt.getD (ar.fl (2 * tau))) fuel 0 s with
  | none => none
  | some (t, s') => some (odeStepR ar env d Q s' t (ar.fl (tau - t)))

/-- The matrix `S`, ekf.hpp:129-130, mirrored as in 134. -/
def innovR (ar : Arith F) {m : ℕ} (P : Mat n n F) (H : Mat m n F) (R : Mat m m F) : Mat m m F :=
  symU fun i j => ar.fl (mulR ar (mulR ar H (symU P)) Hᵀ i j + R i j)

/-- The gain `K`, ekf.hpp:133-134. -/
def gainR (ar : Arith F) (env : Env G F n) {m : ℕ} (P : Mat n n F) (H : Mat m n F) (R : Mat m m F) : Mat n m F :=
  (env.solve (innovR ar P H R) (mulR ar H P))ᵀ

/-- The covariance after an update with gain `K`, ekf.hpp:138. -/
def postR (ar : Arith F) {m : ℕ} (P : Mat n n F) (H : Mat m n F) (K : Mat n m F) : Mat n n F :=
  symU (mulR ar (fun i j => ar.fl ((1 : Mat n n F) i j - mulR ar K H i j)) P)

/-- `update`, ekf.hpp:117-139. -/
def updateR (ar : Arith F) (env : Env G F n) (z : Meas G F n) (R : Mat z.m z.m F) (s : State G F n) : State G F n :=
  let H := z.jac s.g
  let K := gainR ar env s.P H R
  { g := env.rplus s.g (ar.mv K (z.yminus z.y (z.h s.g))), P := postR ar s.P H K }

/-- One operation with a fuel bound for the prediction loop; `none` if `predict` did not return. -/
def stepR (ar : Arith F) (env : Env G F n) (fuel : ℕ) (s : State G F n) : Op G F n → Option (State G F n)
  | .reset g P => some (reset s g P)
  | .predict d Q tau dt => predictR ar env d Q tau dt fuel s
  | .update z R => some (updateR ar env z R s)

/-- State after a history (oldest first). -/
def runR (ar : Arith F) (env : Env G F n) (fuel : ℕ) : State G F n → List (Op G F n) → Option (State G F n)
  | s, [] => some s
  | s, o :: os => (stepR ar env fuel s o).bind fun s' => runR ar env fuel s' os

end Verif.EKF
