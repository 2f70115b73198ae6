import Verif.Proofs.FlattenMat

/-! # Objects of the flattened functions over histories of calls -/

set_option linter.unusedSectionVars false

namespace Verif.Flatten

open Verif.Sparse Verif.Lie Verif.MeshFn Verif.NLP

/-- Sums over the arguments. -/
theorem sum_arg {nx nu : ℕ} {M : Type*} [AddCommMonoid M] (φ : Arg nx nu → M) : ∑ a, φ a = φ .t + ((∑ k, φ (.x k)) + ∑ k, φ (.u k)) := by
  let e : Unit ⊕ (Fin nx ⊕ Fin nu) ≃ Arg nx nu :=
    { toFun := fun | .inl _ => .t | .inr (.inl k) => .x k | .inr (.inr k) => .u k
      invFun := fun | .t => .inl () | .x k => .inr (.inl k) | .u k => .inr (.inr k)
      left_inv := by rintro (_ | _ | _) <;> rfl
      right_inv := by rintro (_ | _ | _) <;> rfl }
  rw [← Equiv.sum_comp e, Fintype.sum_sum_type, Fintype.sum_sum_type, Fintype.sum_unique]
  rfl

theorem sum_earg {nx nq : ℕ} {M : Type*} [AddCommMonoid M] (φ : EArg nx nq → M) :
    ∑ a, φ a = φ .tf + ((∑ k, φ (.x0 k)) + ((∑ k, φ (.xf k)) + ∑ k, φ (.q k))) := by
  let e : Unit ⊕ (Fin nx ⊕ (Fin nx ⊕ Fin nq)) ≃ EArg nx nq :=
    { toFun := fun | .inl _ => .tf | .inr (.inl k) => .x0 k | .inr (.inr (.inl k)) => .xf k | .inr (.inr (.inr k)) => .q k
      invFun := fun | .tf => .inl () | .x0 k => .inr (.inl k) | .xf k => .inr (.inr (.inl k)) | .q k => .inr (.inr (.inr k))
      left_inv := by rintro (_ | _ | _ | _) <;> rfl
      right_inv := by rintro (_ | _ | _ | _) <;> rfl }
  rw [← Equiv.sum_comp e, Fintype.sum_sum_type, Fintype.sum_sum_type, Fintype.sum_sum_type, Fintype.sum_unique]
  rfl

variable {F : Type*} [Field F] {X U : Type*} {nx nu nq nf : ℕ}

/-- The derivatives of `f` have the right sizes. -/
structure GFn.Shape (nx nu : ℕ) (f : GFn X U F nf) : Prop where
  jac_rows : ∀ t x u, (f.jac t x u).rows = nf
  jac_cols : ∀ t x u, (f.jac t x u).cols = nVar nx nu
  hess_rows : ∀ t x u, (f.hess t x u).rows = nVar nx nu
  hess_cols : ∀ t x u, (f.hess t x u).cols = nf * nVar nx nu

structure GEFn.Shape (nx : ℕ) (f : GEFn X F nq nf) : Prop where
  jac_rows : ∀ t x y q, (f.jac t x y q).rows = nf
  jac_cols : ∀ t x y q, (f.jac t x y q).cols = nVarE nx nq
  hess_rows : ∀ t x y q, (f.hess t x y q).rows = nVarE nx nq
  hess_cols : ∀ t x y q, (f.hess t x y q).cols = nf * nVarE nx nq

structure Obj.Ok (nx nu nf : ℕ) (o : Obj F) : Prop where
  jop : JopOk nx nu o.jop
  hop : HopOk nx nu o.hop
  H_rows : o.H.rows = nVar nx nu
  H_cols : o.H.cols = nf * nVar nx nu

structure Obj.OkE (nx nq nf : ℕ) (o : Obj F) : Prop where
  jop : JopOkE nx nq o.jop
  hop : HopOkE nx nq o.hop
  H_rows : o.H.rows = nVarE nx nq
  H_cols : o.H.cols = nf * nVarE nx nq

theorem Obj.init_ok : (Obj.init (F := F) (nVar nx nu) nf).Ok nx nu nf where
  jop := ⟨rfl, rfl, fun _ _ _ => empty_val _ _ _ _ _⟩
  hop := ⟨rfl, rfl, fun _ _ _ _ => empty_val _ _ _ _ _⟩
  H_rows := rfl
  H_cols := rfl

theorem Obj.init_okE : (Obj.init (F := F) (nVarE nx nq) nf).OkE nx nq nf where
  jop := ⟨rfl, rfl, fun _ _ _ => empty_val _ _ _ _ _⟩
  hop := ⟨rfl, rfl, fun _ _ _ _ => empty_val _ _ _ _ _⟩
  H_rows := rfl
  H_cols := rfl

variable (LX : LieOps X F nx) (LU : LieOps U F nu)

/-- The entries of the Jacobian of an inner function. -/
def innerJ (f : GFn X U F nf) (xl : Traj X F nx) (ul : Traj U F nu) (t : F) (e : Fin nx → F) (v : Fin nu → F) (j : Fin nf) (a : Arg nx nu) : F :=
  ∑ k : Arg nx nu, (f.jac t (LX.rplus (xl.val t) e) (LU.rplus (ul.val t) v)).val j k.pos * jopT LX LU e v (xl.d t) (ul.d t) k a

/-- The entries of its Hessian. -/
def innerH (f : GFn X U F nf) (xl : Traj X F nx) (ul : Traj U F nu) (t : F) (e : Fin nx → F) (v : Fin nu → F) (j : Fin nf) (a b : Arg nx nu) : F :=
  (∑ k : Arg nx nu, ∑ l : Arg nx nu, (f.hess t (LX.rplus (xl.val t) e) (LU.rplus (ul.val t) v)).val k.pos (nVar nx nu * j + l.pos) *
    jopT LX LU e v (xl.d t) (ul.d t) l b * jopT LX LU e v (xl.d t) (ul.d t) k a) +
  ∑ k : Arg nx nu, (f.jac t (LX.rplus (xl.val t) e) (LU.rplus (ul.val t) v)).val j k.pos * hopT LX LU e v (xl.d t) (ul.d t) k a b

theorem innerJac_spec {f : GFn X U F nf} (hf : f.Shape nx nu) (xl : Traj X F nx) (ul : Traj U F nu) (t : F) (e : Fin nx → F) (v : Fin nu → F) {o : Obj F}
    (ho : o.Ok nx nu nf) : ∃ o', innerJac LX LU f xl ul t e v o = some o' ∧ o'.Ok nx nu nf ∧ o'.J.rows = nf ∧ o'.J.cols = nVar nx nu ∧
      ∀ (j : Fin nf) a, o'.J.val j (Arg.pos a) = innerJ LX LU f xl ul t e v j a := by
  obtain ⟨jop, h1, h2, h3⟩ := joplus_spec LX LU e v (xl.d t) (ul.d t) o.jop ho.jop
  obtain ⟨J, hJ, r, c, hv⟩ := jac_product (argLayout nx nu) (f.jac t (LX.rplus (xl.val t) e) (LU.rplus (ul.val t) v)) jop (hf.jac_rows _ _ _)
    (hf.jac_cols _ _ _) h2.1 h2.2.1
  refine ⟨{ o with jop := jop, J := J }, ?_, ⟨h2, ho.hop, ho.H_rows, ho.H_cols⟩, r, c, fun j a => ?_⟩
  · unfold innerJac
    simp only [h1, hJ]
  · refine (hv j a).trans (Finset.sum_congr rfl fun k _ => ?_)
    change _ * jop.val k.pos a.pos = _
    rw [h3]
    rfl

theorem innerHess_spec {f : GFn X U F nf} (hf : f.Shape nx nu) (xl : Traj X F nx) (ul : Traj U F nu) (t : F) (e : Fin nx → F) (v : Fin nu → F) {o : Obj F}
    (ho : o.Ok nx nu nf) : ∃ o', innerHess LX LU f xl ul t e v o = some o' ∧ o'.Ok nx nu nf ∧
      ∀ j a b, o'.H.val (Arg.pos a) (nVar nx nu * (j : Fin nf) + Arg.pos b) = innerH LX LU f xl ul t e v j a b := by
  obtain ⟨jop, h1, h2, h3⟩ := joplus_spec LX LU e v (xl.d t) (ul.d t) o.jop ho.jop
  obtain ⟨hop, k1, k2, k3⟩ := hoplus_spec LX LU e v (xl.d t) (ul.d t) o.hop ho.hop
  obtain ⟨H, hH, r, c, hv⟩ := hess_product (argLayout nx nu) o.H (f.jac t (LX.rplus (xl.val t) e) (LU.rplus (ul.val t) v))
    (f.hess t (LX.rplus (xl.val t) e) (LU.rplus (ul.val t) v)) jop hop (hf.jac_rows _ _ _)
    (hf.jac_cols _ _ _) h2.1 h2.2.1 (hf.hess_rows _ _ _) (hf.hess_cols _ _ _) k2.1 k2.2.1 ho.H_rows ho.H_cols
  refine ⟨{ o with jop := jop, hop := hop, H := H }, ?_, ⟨h2, k2, r, c⟩, fun j a b => ?_⟩
  · unfold innerHess
    simp only [h1, k1, hH]
  · refine (hv j a b).trans ?_
    have e1 : ∀ k a : Arg nx nu, jop.val ((argLayout nx nu).pos k) ((argLayout nx nu).pos a) = jopT LX LU e v (xl.d t) (ul.d t) k a := h3
    have e2 : ∀ k a b : Arg nx nu, hop.val ((argLayout nx nu).pos a) (nVar nx nu * (argLayout nx nu).pos k + (argLayout nx nu).pos b) =
      hopT LX LU e v (xl.d t) (ul.d t) k a b := k3
    simp only [e1, e2]
    rfl

variable {nq : ℕ} (L : LieOps X F nx)

def endptJ (f : GEFn X F nq nf) (xl : Traj X F nx) (tf : F) (e0 ef : Fin nx → F) (q : Fin nq → F) (j : Fin nf) (a : EArg nx nq) : F :=
  ∑ k : EArg nx nq, (f.jac tf (L.rplus (xl.val 0) e0) (L.rplus (xl.val tf) ef) q).val j k.pos * jopTE nq L e0 ef (xl.d tf) k a

def endptH (f : GEFn X F nq nf) (xl : Traj X F nx) (tf : F) (e0 ef : Fin nx → F) (q : Fin nq → F) (j : Fin nf) (a b : EArg nx nq) : F :=
  (∑ k : EArg nx nq, ∑ l : EArg nx nq, (f.hess tf (L.rplus (xl.val 0) e0) (L.rplus (xl.val tf) ef) q).val k.pos (nVarE nx nq * j + l.pos) *
    jopTE nq L e0 ef (xl.d tf) l b * jopTE nq L e0 ef (xl.d tf) k a) +
  ∑ k : EArg nx nq, (f.jac tf (L.rplus (xl.val 0) e0) (L.rplus (xl.val tf) ef) q).val j k.pos * hopTE nq L e0 ef (xl.d tf) k a b

theorem endptJac_spec {f : GEFn X F nq nf} (hf : f.Shape nx) (xl : Traj X F nx) (tf : F) (e0 ef : Fin nx → F) (q : Fin nq → F) {o : Obj F}
    (ho : o.OkE nx nq nf) : ∃ o', endptJac L f xl tf e0 ef q o = some o' ∧ o'.OkE nx nq nf ∧ o'.J.rows = nf ∧ o'.J.cols = nVarE nx nq ∧
      ∀ (j : Fin nf) a, o'.J.val j (EArg.pos a) = endptJ L f xl tf e0 ef q j a := by
  obtain ⟨jop, h1, h2, h3⟩ := joplusE_spec L e0 ef (xl.d tf) o.jop ho.jop
  obtain ⟨J, hJ, r, c, hv⟩ := jac_product (eargLayout nx nq) (f.jac tf (L.rplus (xl.val 0) e0) (L.rplus (xl.val tf) ef) q) jop (hf.jac_rows _ _ _ _)
    (hf.jac_cols _ _ _ _) h2.1 h2.2.1
  refine ⟨{ o with jop := jop, J := J }, ?_, ⟨h2, ho.hop, ho.H_rows, ho.H_cols⟩, r, c, fun j a => ?_⟩
  · unfold endptJac
    simp only [h1, hJ]
  · refine (hv j a).trans (Finset.sum_congr rfl fun k _ => ?_)
    change _ * jop.val k.pos a.pos = _
    rw [h3]
    rfl

theorem endptHess_spec {f : GEFn X F nq nf} (hf : f.Shape nx) (xl : Traj X F nx) (tf : F) (e0 ef : Fin nx → F) (q : Fin nq → F) {o : Obj F}
    (ho : o.OkE nx nq nf) : ∃ o', endptHess L f xl tf e0 ef q o = some o' ∧ o'.OkE nx nq nf ∧
      ∀ j a b, o'.H.val (EArg.pos a) (nVarE nx nq * (j : Fin nf) + EArg.pos b) = endptH L f xl tf e0 ef q j a b := by
  obtain ⟨jop, h1, h2, h3⟩ := joplusE_spec L e0 ef (xl.d tf) o.jop ho.jop
  obtain ⟨hop, k1, k2, k3⟩ := hoplusE_spec L e0 ef (xl.d tf) o.hop ho.hop
  obtain ⟨H, hH, r, c, hv⟩ := hess_product (eargLayout nx nq) o.H (f.jac tf (L.rplus (xl.val 0) e0) (L.rplus (xl.val tf) ef) q)
    (f.hess tf (L.rplus (xl.val 0) e0) (L.rplus (xl.val tf) ef) q) jop hop (hf.jac_rows _ _ _ _)
    (hf.jac_cols _ _ _ _) h2.1 h2.2.1 (hf.hess_rows _ _ _ _) (hf.hess_cols _ _ _ _) k2.1 k2.2.1 ho.H_rows ho.H_cols
  refine ⟨{ o with jop := jop, hop := hop, H := H }, ?_, ⟨h2, k2, r, c⟩, fun j a b => ?_⟩
  · unfold endptHess
    simp only [h1, k1, hH]
  · refine (hv j a b).trans ?_
    have e1 : ∀ k a : EArg nx nq, jop.val ((eargLayout nx nq).pos k) ((eargLayout nx nq).pos a) = jopTE nq L e0 ef (xl.d tf) k a := h3
    have e2 : ∀ k a b : EArg nx nq, hop.val ((eargLayout nx nq).pos a) (nVarE nx nq * (eargLayout nx nq).pos k + (eargLayout nx nq).pos b) =
      hopTE nq L e0 ef (xl.d tf) k a b := k3
    simp only [e1, e2]
    rfl

/-- The functions of a new object. -/
theorem flatInner_spec {f : GFn X U F nf} (hf : f.Shape nx nu) (xl : Traj X F nx) (ul : Traj U F nu) (p : Arg nx nu → F) :
    (((flatInner LX LU f xl ul).jac p).rows = nf ∧ ((flatInner LX LU f xl ul).jac p).cols = nVar nx nu ∧
      ((flatInner LX LU f xl ul).hess p).rows = nVar nx nu ∧ ((flatInner LX LU f xl ul).hess p).cols = nf * nVar nx nu) ∧
    (∀ (j : Fin nf) (a : Arg nx nu), ((flatInner LX LU f xl ul).jac p).val j a.pos = innerJ LX LU f xl ul (p .t) (fun k => p (.x k)) (fun k => p (.u k)) j a) ∧
    ∀ (j : Fin nf) (a b : Arg nx nu), ((flatInner LX LU f xl ul).hess p).val a.pos (nVar nx nu * j + b.pos) =
      innerH LX LU f xl ul (p .t) (fun k => p (.x k)) (fun k => p (.u k)) j a b := by
  obtain ⟨o, h1, h2, h3, h4, h5⟩ := innerJac_spec LX LU hf xl ul (p .t) (fun k => p (.x k)) (fun k => p (.u k)) (Obj.init_ok (nf := nf))
  obtain ⟨o', k1, k2, k3⟩ := innerHess_spec LX LU hf xl ul (p .t) (fun k => p (.x k)) (fun k => p (.u k)) (Obj.init_ok (nf := nf))
  have e1 : (flatInner LX LU f xl ul).jac p = o.J := by simp only [flatInner, h1]; rfl
  have e2 : (flatInner LX LU f xl ul).hess p = o'.H := by simp only [flatInner, k1]; rfl
  rw [e1, e2]
  exact ⟨⟨h3, h4, k2.H_rows, k2.H_cols⟩, h5, k3⟩

theorem flatEndpt_spec {f : GEFn X F nq nf} (hf : f.Shape nx) (xl : Traj X F nx) (p : EArg nx nq → F) :
    (((flatEndpt L f xl).jac p).rows = nf ∧ ((flatEndpt L f xl).jac p).cols = nVarE nx nq ∧
      ((flatEndpt L f xl).hess p).rows = nVarE nx nq ∧ ((flatEndpt L f xl).hess p).cols = nf * nVarE nx nq) ∧
    (∀ (j : Fin nf) (a : EArg nx nq), ((flatEndpt L f xl).jac p).val j a.pos =
      endptJ L f xl (p .tf) (fun k => p (.x0 k)) (fun k => p (.xf k)) (fun k => p (.q k)) j a) ∧
    ∀ (j : Fin nf) (a b : EArg nx nq), ((flatEndpt L f xl).hess p).val a.pos (nVarE nx nq * j + b.pos) =
      endptH L f xl (p .tf) (fun k => p (.x0 k)) (fun k => p (.xf k)) (fun k => p (.q k)) j a b := by
  obtain ⟨o, h1, h2, h3, h4, h5⟩ := endptJac_spec L hf xl (p .tf) (fun k => p (.x0 k)) (fun k => p (.xf k)) (fun k => p (.q k)) (Obj.init_okE (nf := nf))
  obtain ⟨o', k1, k2, k3⟩ := endptHess_spec L hf xl (p .tf) (fun k => p (.x0 k)) (fun k => p (.xf k)) (fun k => p (.q k)) (Obj.init_okE (nf := nf))
  have e1 : (flatEndpt L f xl).jac p = o.J := by simp only [flatEndpt, h1]; rfl
  have e2 : (flatEndpt L f xl).hess p = o'.H := by simp only [flatEndpt, k1]; rfl
  rw [e1, e2]
  exact ⟨⟨h3, h4, k2.H_rows, k2.H_cols⟩, h5, k3⟩

end Verif.Flatten
