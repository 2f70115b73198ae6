import Verif.Spec.MPCSolver

/-! # Specification: a predictive controller in another frame of reference -/

namespace Verif.MPC

variable {T σ X U T' σ' X' U' F : Type*} {nx nu ncr n : ℕ}

/-- `e` and `eu` commute with motions and keep differences, as left translations do; `τ` keeps durations. -/
structure IsFrame (sys : Sys T F σ X U nx nu) (sys' : Sys T' F σ' X' U' nx nu) (e : X → X') (eu : U → U') (τ : T → T') : Prop where
  env : sys'.env = sys.env
  plus : ∀ t d, sys'.plus (τ t) d = τ (sys.plus t d)
  xplus : ∀ x v, sys'.LX.rplus (e x) v = e (sys.LX.rplus x v)
  uplus : ∀ u v, sys'.LU.rplus (eu u) v = eu (sys.LU.rplus u v)
  rminus : ∀ x y, sys'.rminus (e x) (e y) = sys.rminus x y
  ad : sys'.LX.ad = sys.LX.ad
  drExpinv : sys'.LX.drExpinv = sys.LX.drExpinv
  pat : sys'.pat = sys.pat
  comm : sys'.comm = sys.comm

/-- The same functor in the other frame. -/
structure UFn.Moved (e : X → X') (eu : U → U') (τ : T → T') (f : UFn T F X U nx nu n) (f' : UFn T' F X' U' nx nu n) : Prop where
  timed : f'.timed = f.timed
  val : ∀ t x u, f'.val (t.map τ) (e x) (eu u) = f.val t x u
  dx : ∀ t x u, f'.dx (t.map τ) (e x) (eu u) = f.dx t x u
  du : ∀ t x u, f'.du (t.map τ) (e x) (eu u) = f.du t x u

/-- The same controller in the other frame. -/
structure Args.Moved (e : X → X') (eu : U → U') (τ : T → T') (a : Args T F X U nx nu ncr) (a' : Args T' F X' U' nx nu ncr) : Prop where
  f : a.f.Moved e eu τ a'.f
  cr : a.cr.Moved e eu τ a'.cr
  crl : a'.crl = a.crl
  cru : a'.cru = a.cru
  K : a'.K = a.K
  tf : a'.tf = a.tf
  warmstart : a'.warmstart = a.warmstart
  Kmesh : a'.Kmesh = a.Kmesh

/-- The running constraints have `set_time`, or they look the same at the default elements of both frames. -/
def CrFrame (sys : Sys T F σ X U nx nu) (sys' : Sys T' F σ' X' U' nx nu) (cr : UFn T F X U nx nu n) (cr' : UFn T' F X' U' nx nu n) : Prop :=
  cr.timed = true ∨ (cr'.val none sys'.dfltX sys'.dfltU = cr.val none sys.dfltX sys.dfltU ∧
    cr'.dx none sys'.dfltX sys'.dfltU = cr.dx none sys.dfltX sys.dfltU ∧ cr'.du none sys'.dfltX sys'.dfltU = cr.du none sys.dfltX sys.dfltU)

/-- The same operation in the other frame. -/
inductive Moved (e : X → X') (eu : U → U') (τ : T → T') : Op T F X U nx nu ncr → Op T' F X' U' nx nu ncr → Prop
  | new (a a') (h : a.Moved e eu τ a') : Moved e eu τ (.new a) (.new a')
  | copy (i) : Moved e eu τ (.copy i) (.copy i)
  | assign (i j) : Moved e eu τ (.assign i j) (.assign i j)
  | call (i t x) : Moved e eu τ (.call i t x) (.call i (τ t) (e x))
  | setX (i xd dxd xd' dxd') (hx : ∀ t, xd' (τ t) = e (xd t)) (hd : ∀ t, dxd' (τ t) = dxd t) : Moved e eu τ (.setX i xd dxd) (.setX i xd' dxd')
  | setU (i ud ud') (hu : ∀ t, ud' (τ t) = eu (ud t)) : Moved e eu τ (.setU i ud) (.setU i ud')
  | setW (i Q Qtf R) : Moved e eu τ (.setW i Q Qtf R) (.setW i Q Qtf R)
  | reset (i) : Moved e eu τ (.reset i) (.reset i)

/-- Every controller gets its desired trajectories right after it is made; `k` controllers exist at the start. -/
def Referred : ℕ → List (Op T F X U nx nu ncr) → Prop
  | _, [] => True
  | k, .new _ :: .setX i _ _ :: .setU j _ :: l => i = k ∧ j = k ∧ Referred (k + 1) l
  | _, .new _ :: _ => False
  | k, .copy _ :: l => Referred (k + 1) l
  | k, .assign _ _ :: l => Referred k l
  | k, .call _ _ _ :: l => Referred k l
  | k, .setX _ _ _ :: l => Referred k l
  | k, .setU _ _ :: l => Referred k l
  | k, .setW _ _ _ _ :: l => Referred k l
  | k, .reset _ :: l => Referred k l

/-- The arguments of constructors in both histories. -/
def CrFrames (sys : Sys T F σ X U nx nu) (sys' : Sys T' F σ' X' U' nx nu) (ops : List (Op T F X U nx nu ncr)) (ops' : List (Op T' F X' U' nx nu ncr)) : Prop :=
  ∀ a a' : _, (Op.new a, Op.new a') ∈ ops.zip ops' → CrFrame sys sys' a.cr a'.cr

/-- What a call returns, in the other frame. -/
def Out.moved (e : X → X') (eu : U → U') (r : Out X U) : Out X' U' := ⟨eu r.u, r.code, r.uTraj.map eu, r.xTraj.map e⟩

end Verif.MPC
