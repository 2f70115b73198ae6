import Verif.Model.PID
import Verif.Model.EKF
import Verif.Model.ASIF

/-!
# Specification: the same data described in another frame

A frame is a map `e` from states to states that commutes with motions of the body, as the left translations of a group do, and a map
`τ` of times that keeps order and durations. Two histories are the same up to a change of frame when everything that the user passes
in is expressed in the frame.
-/

universe v

namespace Verif.Frame

/-- Left translation of a group whose motions are `x ⊕ v = x · exp v` and whose differences are `x ⊖ y = log (y⁻¹ · x)`. -/
def leftMul {X : Type*} [Mul X] (g : X) (x : X) : X := g * x

end Verif.Frame

namespace Verif.PID

variable {T G T' G' F : Type*} {n : ℕ} [LinearOrder T] [LinearOrder T'] [Field F] [LinearOrder F]

/-- `e` and `τ` keep differences of states, order and durations. -/
structure IsFrame (env : Env T G F n) (env' : Env T' G' F n) (e : G → G') (τ : T → T') : Prop where
  rminus : ∀ x y, env'.rminus (e x) (e y) = env.rminus x y
  tminus : ∀ s t, env'.tminus (τ s) (τ t) = env.tminus s t
  lt : ∀ s t, τ s < τ t ↔ s < t

/-- The same operation in the other frame. -/
inductive Moved (e : G → G') (τ : T → T') : Op T G F n → Op T' G' F n → Prop
  | call (t x v) : Moved e τ (.call t x v) (.call (τ t) (e x) v)
  | setKp (k) : Moved e τ (.setKp k) (.setKp k)
  | setKpAll (k) : Moved e τ (.setKpAll k) (.setKpAll k)
  | setKd (k) : Moved e τ (.setKd k) (.setKd k)
  | setKdAll (k) : Moved e τ (.setKdAll k) (.setKdAll k)
  | setKi (k) : Moved e τ (.setKi k) (.setKi k)
  | setKiAll (k) : Moved e τ (.setKiAll k) (.setKiAll k)
  | resetIntegral : Moved e τ .resetIntegral .resetIntegral
  | setXdes (f f') (h : ∀ t, f' (τ t) = (e (f t).1, (f t).2)) : Moved e τ (.setXdes f) (.setXdes f')
  | setXdesSpline (t0 c c') (h : ∀ s, c' s = (e (c s).1, (c s).2)) : Moved e τ (.setXdesSpline t0 c) (.setXdesSpline (τ t0) c')

/-- The operation sets a reference. -/
def Op.refers : Op T G F n → Bool
  | .setXdes _ => true
  | .setXdesSpline _ _ => true
  | _ => false

/-- The operation computes an input. -/
def Op.calls : Op T G F n → Bool
  | .call _ _ _ => true
  | _ => false

/-- No input is computed before a reference is set. -/
def Referred (ops : List (Op T G F n)) : Prop :=
  ∀ pre o post, ops = pre ++ o :: post → o.calls = true → ∃ o' ∈ pre, o'.refers = true

/-- What the operations of a history return, in order. -/
def outputs (env : Env T G F n) (s : State T G F n) : List (Op T G F n) → List (Option (Vec n F))
  | [] => []
  | o :: l => (step env s o).2 :: outputs env (step env s o).1 l

end Verif.PID

namespace Verif.EKF

variable {G G' : Type*} {F : Type v} {n : ℕ} [Field F] [LinearOrder F]

/-- `e` commutes with motions; everything else is the same. -/
structure IsFrame (env : Env G F n) (env' : Env G' F n) (e : G → G') : Prop where
  rplus : ∀ x v, env'.rplus (e x) v = e (env.rplus x v)
  ad : env'.ad = env.ad
  tab : env'.tab = env.tab
  solve : ∀ {m : ℕ} (S : Mat m m F) (B : Mat m n F), env'.solve S B = env.solve S B

/-- The estimate in the other frame. -/
def State.moved (e : G → G') (s : State G F n) : State G' F n := ⟨e s.g, s.P⟩

/-- The same dynamics in the other frame. -/
structure Dyn.Moved (e : G → G') (d : Dyn G F n) (d' : Dyn G' F n) : Prop where
  f : ∀ t x, d'.f t (e x) = d.f t x
  df : ∀ t x, d'.df t (e x) = d.df t x

/-- The same operation in the other frame. The measured values may be expressed in another frame `eY` too. -/
inductive Moved (e : G → G') : Op G F n → Op G' F n → Prop
  | reset (g P) : Moved e (.reset g P) (.reset (e g) P)
  | predict (d d' Q tau dt) (h : d.Moved e d') : Moved e (.predict d Q tau dt) (.predict d' Q tau dt)
  | update {m : ℕ} {Y Y' : Type v} (eY : Y → Y') (h : G → Y) (h' : G' → Y') (jac : G → Mat m n F) (jac' : G' → Mat m n F)
      (ym : Y → Y → Vec m F) (ym' : Y' → Y' → Vec m F) (y : Y) (R : Mat m m F)
      (hh : ∀ x, h' (e x) = eY (h x)) (hj : ∀ x, jac' (e x) = jac x) (hy : ∀ a b, ym' (eY a) (eY b) = ym a b) :
      Moved e (.update ⟨m, Y, h, jac, ym, y⟩ R) (.update ⟨m, Y', h', jac', ym', eY y⟩ R)

end Verif.EKF

namespace Verif.ASIF

variable {X X' U U' F : Type*} {nx nu : ℕ}

/-- `e` commutes with motions of the state; `eu` with changes of the input. -/
structure IsFrame (env : Env X U F nx nu) (env' : Env X' U' F nx nu) (e : X → X') (eu : U → U') : Prop where
  xplus : ∀ x v, env'.xplus (e x) v = e (env.xplus x v)
  ad : env'.ad = env.ad
  uplus : ∀ u v, env'.uplus (eu u) v = eu (env.uplus u v)
  uminus : ∀ u v, env'.uminus (eu u) (eu v) = env.uminus u v

/-- The same dynamics in the other frame. -/
structure Dyn.Moved (e : X → X') (eu : U → U') (d : Dyn X U F nx nu) (d' : Dyn X' U' F nx nu) : Prop where
  f : ∀ x u, d'.f (e x) (eu u) = d.f x u
  du : ∀ x u, d'.du (e x) (eu u) = d.du x u

/-- The same call in the other frame. -/
inductive Call.Moved (e : X → X') (eu : U → U') : Call X U F nx → Call X' U' F nx → Prop
  | mk (g : X) (udes : U) (nh : ℕ) (h dt : F → X → Fin nh → F) (h' dt' : F → X' → Fin nh → F) (dx : F → X → Matrix (Fin nh) (Fin nx) F)
      (dx' : F → X' → Matrix (Fin nh) (Fin nx) F) (b : Backup X U F nx) (b' : Backup X' U' F nx)
      (hh : ∀ t x, h' t (e x) = h t x) (hdt : ∀ t x, dt' t (e x) = dt t x) (hdx : ∀ t x, dx' t (e x) = dx t x)
      (hb : ∀ t x, b'.bu t (e x) = eu (b.bu t x)) (hcl : ∀ t x, b'.dcl t (e x) = b.dcl t x) :
      Call.Moved e eu ⟨g, udes, ⟨nh, h, dt, dx⟩, b⟩ ⟨e g, eu udes, ⟨nh, h', dt', dx'⟩, b'⟩

/-- The same parameters in the other frame: the centre of the input bounds is moved. -/
def FPrm.moved (eu : U → U') (p : FPrm U F nu) : FPrm U' F nu :=
  ⟨p.T, p.nh, p.W, ⟨p.ulim.rows, p.ulim.A, eu p.ulim.c, p.ulim.l, p.ulim.u⟩, p.asif⟩

/-- What the calls of a history return, in order, as long as they return. -/
def answers [Field F] [LinearOrder F] (env : Env X U F nx nu) (solver : Solver F) (fuel : ℕ) :
    List (Call X U F nx) → Filter X U F nx nu → List (U × QP.Status)
  | [], _ => []
  | c :: l, s => match s.call env solver fuel c with
    | none => []
    | some r => r.2 :: answers env solver fuel l r.1

end Verif.ASIF
