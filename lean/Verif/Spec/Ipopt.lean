import Verif.Model.Ipopt
import Verif.Spec.QP

/-!
# Specification of the Ipopt interface

Only data types come from the model.
-/

namespace Verif.Ipopt

open Verif.QP (Ext)
open Verif.QPSpec (lower upper)
open Verif.Sparse Verif.MeshFn
open Verif.NLP (NLPSol NLPStatus)

variable {σ F : Type*} [Field F] [LinearOrder F]

/-- The entry `(r, c)` of the matrix given by triplets: positions `S` and values `V`. -/
def triplet (S : List (ℕ × ℕ)) (V : List F) (r c : ℕ) : F := (((S.zip V).filter fun e => e.1 = (r, c)).map Prod.snd).sum

/-- The symmetric matrix that Ipopt makes of triplets in the lower triangle. -/
def symmetric (S : List (ℕ × ℕ)) (V : List F) (i j : ℕ) : F := if j ≤ i then triplet S V i j else triplet S V j i

/-- What a problem means: values, derivatives and where derivatives are stored. -/
structure Meaning (F : Type*) where
  f : Vec F → F
  df : Vec F → ℕ → F
  g : Vec F → ℕ → F
  dg : Vec F → ℕ → ℕ → F
  d2f : Vec F → ℕ → ℕ → F
  d2g : Vec F → Vec F → ℕ → ℕ → F
  patJ : ℕ → ℕ → Bool
  rowMajorJ : Bool
  patF : ℕ → ℕ → Bool
  patG : ℕ → ℕ → Bool

/-- The result `A` is a matrix of this size, storage order, pattern and these values. -/
structure IsMat (A : Sp F) (r c : ℕ) (pat : ℕ → ℕ → Bool) (v : ℕ → ℕ → F) : Prop where
  rows : A.rows = r
  cols : A.cols = c
  pat : ∀ i < r, ∀ j < c, (A.ent i j).isSome = pat i j
  val : ∀ i < r, ∀ j < c, A.val i j = v i j

/-- The object behaves as it means in every state that satisfies `Inv`, keeps `Inv`, and always stores the same positions; the
Hessians store the upper triangle only. -/
structure Steady (p : Nlp σ F) (M : Meaning F) (Inv : σ → Prop) : Prop where
  f : ∀ s x, Inv s → x.size = p.n → ∃ s', p.f x s = some (M.f x, s') ∧ Inv s'
  df : ∀ s x, Inv s → x.size = p.n → ∃ A s', p.df x s = some (A, s') ∧ Inv s' ∧ A.rows = 1 ∧ A.cols = p.n ∧ ∀ j < p.n, A.val 0 j = M.df x j
  g : ∀ s x, Inv s → x.size = p.n → ∃ v s', p.g x s = some (v, s') ∧ Inv s' ∧ v.size = p.m ∧ ∀ i < p.m, v.val i = M.g x i
  dg : ∀ s x, Inv s → x.size = p.n → ∃ A s', p.dg x s = some (A, s') ∧ Inv s' ∧ A.rowMajor = M.rowMajorJ ∧ IsMat A p.m p.n M.patJ (M.dg x)
  d2f : ∀ s x, Inv s → x.size = p.n → ∃ A s', p.d2f x s = some (A, s') ∧ Inv s' ∧ IsMat A p.n p.n M.patF (M.d2f x)
  d2g : ∀ s x l, Inv s → x.size = p.n → l.size = p.m → ∃ A s', p.d2g x l s = some (A, s') ∧ Inv s' ∧ IsMat A p.n p.n M.patG (M.d2g x l)
  upper : ∀ i j, M.patF i j = true ∨ M.patG i j = true → i ≤ j
  sizes : p.xl.size = p.n ∧ p.xu.size = p.n ∧ p.gl.size = p.m ∧ p.gu.size = p.m

/-- Ipopt keeps the interface: vectors have the announced sizes, buffers the announced lengths, multipliers are asked for only if
there is a warm start, and the Hessian only if it is used. -/
def CB.Ok (n m nJ nH : ℕ) (useHessian warm : Bool) : CB F → Prop
  | .info => True
  | .bounds => True
  | .start _ initZ initLambda => (initZ = true ∨ initLambda = true) → warm = true
  | .f x => x.size = n
  | .gradF x => x.size = n
  | .g x => x.size = n
  | .jacS k => k = nJ
  | .jacV k x => k = nJ ∧ x.size = n
  | .hessS k => k = nH ∧ useHessian = true
  | .hessV k x _ l => k = nH ∧ x.size = n ∧ l.size = m ∧ useHessian = true
  | .finalize _ x zl zu l _ _ => x.size = n ∧ zl.size = n ∧ zu.size = n ∧ l.size = m

/-- A warm start of the right sizes. -/
def Sized (n m : ℕ) (s : NLPSol F) : Prop := s.x.size = n ∧ s.zl.size = n ∧ s.zu.size = n ∧ s.lambda.size = m

/-- How Ipopt reads bounds: everything from `±10¹⁹` on is infinite (options `nlp_lower_bound_inf`, `nlp_upper_bound_inf`). -/
def readLower : Ext F → Ext F
  | .fin a => if a ≤ -(10 ^ 19) then .neg else .fin a
  | b => b
def readUpper : Ext F → Ext F
  | .fin a => if 10 ^ 19 ≤ a then .pos else .fin a
  | b => b

/-- The last callback of the run that reports a result. -/
def lastStatus : List (CB F) → Option Ret
  | [] => none
  | c :: l => match lastStatus l with
    | some r => some r
    | none => match c with
      | .finalize st .. => some st
      | _ => none

end Verif.Ipopt
