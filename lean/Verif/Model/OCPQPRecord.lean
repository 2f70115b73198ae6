import Verif.Model.OCPQP

/-!
# The whole record that `qpsol_to_ocpsol` returns

`OCPSolution` (ocp.hpp:112-153) has default member initialisers `{}`: for a vector of fixed size its elements are whatever the constructor of the linear
algebra library leaves there (parameters here), for a `std::function` the empty function, whose call throws `std::bad_function_call` (`none` here).
-/

set_option linter.unusedVariables false

namespace Verif.OQP

open Verif.Mesh Verif.Sparse Verif.MeshFn Verif.NLP

section

variable {F : Type*} [Field F] [LinearOrder F] {nx nu nq ncr nce : ℕ}

/-- An empty `std::function` (ocp.hpp:149, 152). -/
def emptyFn {A B : Type*} : A → Option B := fun _ => none

/-- `qpsol_to_ocpsol` (ocp_to_qp.hpp:452-497): the record is an `OCPSolution<X, U, Nq, Nce, Ncr>`, whose last two parameters are in the other order
than those of `OCP::Solution` (ocp.hpp:70); only `t0`, `tf`, `u` and `x` are set. `jq`, `jlq`, `jce` are the contents of the vectors that are not. -/
def qpsolRecord (ncr nce : ℕ) (env : Mesh.Env F) (m : Mesh F) (primal : Vec F) (tf : F) (lin : Lin F nx nu) (jq jlq : Fin nq → F)
    (jce : Fin ncr → F) : Option (OCPSol F nx nu nq nce ncr) :=
  let N := nColloc m
  if xvarB + xvarL nx N ≤ primal.size ∧ uvarB nx N + nu * N ≤ primal.size then
    let f := qpsolToOcpsol env m primal tf lin
    some
      { t0 := 0
        tf := tf
        Q := jq
        u := f.2
        x := f.1
        lambda_q := jlq
        lambda_ce := jce
        lambda_dyn := emptyFn
        lambda_cr := emptyFn }
  else none

/-- `ocpsol_to_nlpsol` (ocp_to_nlp.hpp:515) takes a record of any type: the assignment of a vector to a segment of another size (ocp_to_nlp.hpp:536,
543) fails. -/
def nlpsolOfAny (ncr nce : ℕ) {a b : ℕ} (env : Mesh.Env F) (m : Mesh F) (sol : OCPSol F nx nu nq a b) (jx jl : ℕ → F) : Option (NLPSol F) :=
  if h : a = ncr ∧ b = nce then ocpsolToNlpsol (ncr := ncr) (nce := nce) env m (h.1 ▸ h.2 ▸ sol) jx jl else none

end

end Verif.OQP
