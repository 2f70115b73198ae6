import Verif.Model.OCPQPLie
import Verif.Proofs.OCPQPRaw
import Verif.Spec.Flatten

/-! # The conversion on Lie groups is the conversion of a problem on vector spaces -/

set_option linter.unusedSectionVars false

namespace Verif.OQP

open Verif.Mesh Verif.Sparse Verif.MeshFn Verif.NLP Verif.Lie Verif.Flatten

section

variable {F : Type*} [Field F] [LinearOrder F] {X U : Type*} {nx nu ncr nce nf : ℕ}

/-- A function with its derivatives along `x`, `u`. -/
def localFn (nx nu : ℕ) (f : GFn X U F nf) (x : F → X) (u : F → U) : Fn F nx nu nf where
  val p := f.val (p .t) (x (p .t)) (u (p .t))
  jac p := f.jac (p .t) (x (p .t)) (u (p .t))
  hess p := f.hess (p .t) (x (p .t)) (u (p .t))

/-- A function of the end points. -/
def localEFn {nq : ℕ} (f : GEFn X F nq nf) (x0 xf : X) : EFn F nx nq nf where
  val e := f.val (e .tf) x0 xf fun k => e (.q k)
  jac e := f.jac (e .tf) x0 xf fun k => e (.q k)
  hess e := f.hess (e .tf) x0 xf fun k => e (.q k)

def localOCP (nu : ℕ) (ocp : GOCP X U F nx 1 ncr nce) (x : F → X) (u : F → U) (tf : F) : OCP F nx nu 1 ncr nce where
  theta := localEFn ocp.theta (x 0) (x tf)
  f := localFn nx nu ocp.f x u
  g := localFn nx nu ocp.g x u
  cr := localFn nx nu ocp.cr x u
  crl := ocp.crl
  cru := ocp.cru
  ce := localEFn ocp.ce (x 0) (x tf)
  cel := ocp.cel
  ceu := ocp.ceu

/-- The linearisation at zero. -/
def zeroLin (nu : ℕ) (dx : F → Fin nx → F) : Lin F nx nu := ⟨fun _ => 0, dx, fun _ => 0⟩

def localAd (LX : LieOps X F nx) (comm : Bool) : Option ((Fin nx → F) → Sp F) := if comm then none else some fun w => ofMat (LX.ad w)

theorem iter_map {α β σ : Type*} (step : β → σ → Option σ) (φ : α → β) (l : List α) (s : σ) :
    iter step (l.map φ) s = iter (fun a => step (φ a)) l s := by
  induction l generalizing s with
  | nil => rfl
  | cons a l ih =>
    simp only [List.map_cons, iter]
    cases step (φ a) s with
    | none => rfl
    | some s' => exact ih s'

theorem zip_nodes {α β γ : Type*} (l w : List α) (f : α → β) (g : α → γ) :
    l.zip (w.zip ((l.map f).zip (l.map g))) = (l.zip w).map fun p => (p.1, p.2, f p.1, g p.1) := by
  induction l generalizing w with
  | nil => rfl
  | cons a l ih =>
    cases w with
    | nil => rfl
    | cons b w => simp only [List.map_cons, List.zip_cons_cons, ih]

theorem pointListG_map (env : Mesh.Env F) (m : Mesh F) (f : F → X) (g : F → U) :
    pointListG env m (atNodes env m f) (atNodes env m g) =
      ((List.range (nColloc m)).zip ((allNodes env m).zip (allWeights env m))).map fun q => (q.1, q.2.1, q.2.2, f q.2.1, g q.2.1) := by
  unfold pointListG atNodes
  rw [zip_nodes, List.zip_map_right]
  rfl

theorem pointList_map (env : Mesh.Env F) (m : Mesh F) (f : F → Fin nx → F) (g : F → Fin nu → F) :
    pointList env m (atNodes env m f) (atNodes env m g) =
      ((List.range (nColloc m)).zip ((allNodes env m).zip (allWeights env m))).map fun q => (q.1, q.2.1, q.2.2, f q.2.1, g q.2.1) :=
  pointListG_map env m f g

theorem meshEvalG_local (d : ℕ) (env : Mesh.Env F) (m : Mesh F) (fn : GFn X U F nf) (tf : F) (x : F → X) (u : F → U) (scale : Bool) (o : MV F) :
    meshEvalG nx nu d env m fn 0 tf (atNodes env m fun t => x (timeAt tf t)) (atNodes env m fun t => u (timeAt tf t)) scale o =
      meshEval d env m (localFn nx nu fn x u) 0 tf (atNodes env m fun _ => 0) (atNodes env m fun _ => 0) scale o := by
  unfold meshEvalG meshEval
  rw [pointListG_map, pointList_map]
  simp only [iter_map]
  rfl

theorem meshIntegrateG_local (d : ℕ) (env : Mesh.Env F) (m : Mesh F) (fn : GFn X U F nf) (tf : F) (x : F → X) (u : F → U) (o : MV F) :
    meshIntegrateG nx nu d env m fn 0 tf (atNodes env m fun t => x (timeAt tf t)) (atNodes env m fun t => u (timeAt tf t)) o =
      meshIntegrate d env m (localFn nx nu fn x u) 0 tf (atNodes env m fun _ => 0) (atNodes env m fun _ => 0) o := by
  unfold meshIntegrateG meshIntegrate
  rw [pointListG_map, pointList_map]
  simp only [iter_map]
  rfl

theorem allocateG_local (idX : X) (idU : U) (env : Mesh.Env F) (m : Mesh F) (ocp : GOCP X U F nx 1 ncr nce) (tf : F) (work : Work F) :
    allocateG nu idX idU env m ocp work = allocate env m (localOCP nu ocp (fun _ => idX) (fun _ => idU) tf) work := by
  unfold allocateG allocate
  have h1 := meshEvalG_local (nx := nx) (nu := nu) 1 env m ocp.cr 1 (fun _ => idX) (fun _ => idU) false work.cr
  have h2 := meshIntegrateG_local (nx := nx) (nu := nu) 2 env m ocp.g 1 (fun _ => idX) (fun _ => idU) { work.int with lambda := ⟨1, fun _ => 1⟩ }
  simp only at h1 h2 ⊢
  rw [h1, h2]
  rfl

theorem updateCostG_local (env : Mesh.Env F) (m : Mesh F) (ocp : GOCP X U F nx 1 ncr nce) (tf : F) (lin : GLin X U F nx) (s : QPD F × Work F) :
    updateCostG nu env m ocp tf lin s = updateCost env m (localOCP nu ocp lin.x lin.u tf) tf (zeroLin nu lin.dx) s := by
  unfold updateCostG updateCost
  have h2 := meshIntegrateG_local (nx := nx) (nu := nu) 2 env m ocp.g tf lin.x lin.u s.2.int
  simp only at h2 ⊢
  rw [h2]
  rfl

theorem updateDynG_local (env : Mesh.Env F) (m : Mesh F) (LX : LieOps X F nx) (comm : Bool) (ocp : GOCP X U F nx 1 ncr nce) (tf : F)
    (lin : GLin X U F nx) (s : QPD F × Work F) :
    updateDynG nu env m LX comm ocp tf lin s =
      updateDyn env m (localOCP nu ocp lin.x lin.u tf) (localAd LX comm) tf (zeroLin nu lin.dx) s := by
  have hrow : ∀ K alpha M, dynRowG nu env (nColloc m) LX comm ocp tf lin K alpha M =
      dynRow env (nColloc m) (localOCP nu ocp lin.x lin.u tf) (localAd LX comm) tf (zeroLin nu lin.dx) K alpha M := by
    intro K alpha M
    funext it qp
    unfold dynRowG dynRow localAd
    cases comm <;> rfl
  have hiv : ∀ l M qp, dynIvalsG nu env m LX comm ocp tf lin l M qp =
      dynIvals env m (localOCP nu ocp lin.x lin.u tf) (localAd LX comm) tf (zeroLin nu lin.dx) l M qp := by
    intro l
    induction l with
    | nil => intro M qp; rfl
    | cons ival r ih =>
      intro M qp
      simp only [dynIvalsG, dynIvals, hrow, ih]
      rfl
  unfold updateDynG updateDyn
  simp only [hiv]
  rfl

theorem updateCrG_local (env : Mesh.Env F) (m : Mesh F) (ocp : GOCP X U F nx 1 ncr nce) (tf : F) (lin : GLin X U F nx) (s : QPD F × Work F) :
    updateCrG nu env m ocp tf lin s = updateCr env m (localOCP nu ocp lin.x lin.u tf) tf (zeroLin nu lin.dx) s := by
  unfold updateCrG updateCr
  have h1 := meshEvalG_local (nx := nx) (nu := nu) 1 env m ocp.cr tf lin.x lin.u false s.2.cr
  simp only at h1 ⊢
  rw [h1]
  rfl

theorem updateCeG_local (m : Mesh F) (ocp : GOCP X U F nx 1 ncr nce) (tf : F) (lin : GLin X U F nx) (s : QPD F × Work F) :
    updateCeG m ocp tf lin s = updateCe m (localOCP nu ocp lin.x lin.u tf) tf (zeroLin nu lin.dx) s := rfl

theorem updateG_local (env : Mesh.Env F) (m : Mesh F) (LX : LieOps X F nx) (comm : Bool) (ocp : GOCP X U F nx 1 ncr nce) (tf : F)
    (lin : GLin X U F nx) (s : QPD F × Work F) :
    updateG nu env m LX comm ocp tf lin s =
      update env m (localOCP nu ocp lin.x lin.u tf) (localAd LX comm) tf (zeroLin nu lin.dx) s := by
  unfold updateG update
  simp only [updateCostG_local, updateDynG_local, updateCrG_local, updateCeG_local (nu := nu)]

end

section

variable {X U : Type*} {nx nu ncr nce : ℕ}

/-- The Jacobians have the right numbers of rows. -/
structure HasRowsG (ocp : GOCP X U ℝ nx 1 ncr nce) : Prop where
  f : ∀ t x u, (ocp.f.jac t x u).rows = nx
  g : ∀ t x u, (ocp.g.jac t x u).rows = 1
  cr : ∀ t x u, (ocp.cr.jac t x u).rows = ncr
  ce : ∀ t x y q, (ocp.ce.jac t x y q).rows = nce

theorem HasRowsG.loc {ocp : GOCP X U ℝ nx 1 ncr nce} (h : HasRowsG ocp) (x : ℝ → X) (u : ℝ → U) (tf : ℝ) : HasRows (localOCP nu ocp x u tf) :=
  ⟨fun _ => h.f _ _ _, fun _ => h.g _ _ _, fun _ => h.cr _ _ _, fun _ => h.ce _ _ _ _⟩

theorem localAd_ok (LX : LieOps X ℝ nx) (comm : Bool) : IsAd (localAd LX comm) := by
  intro a ha w
  cases comm with
  | true => exact absurd ha (by simp [localAd])
  | false =>
    simp only [localAd, Bool.false_eq_true, if_false, Option.some.injEq] at ha
    subst ha
    exact ⟨rfl, rfl⟩

/-- Every number of the program that `ocp_to_qp` returns. -/
theorem ocpToQpG_built (idX : X) (idU : U) (env : Mesh.Env ℝ) (m : Mesh ℝ) (hm : m ≠ []) (hK : ∀ v ∈ m, 1 ≤ v.K) (LX : LieOps X ℝ nx) (comm : Bool)
    (ocp : GOCP X U ℝ nx 1 ncr nce) (ho : HasRowsG ocp) (tf : ℝ) (lin : GLin X U ℝ nx) :
    ∃ qp, ocpToQpG nu idX idU env m LX comm ocp tf lin = some qp ∧
      BuiltRaw env m (localOCP nu ocp lin.x lin.u tf) (localAd LX comm) tf (zeroLin nu lin.dx) qp := by
  have hN := nColloc_pos hm hK
  obtain ⟨s, e, hs⟩ := allocate_spec (nu := nu) env m (localOCP nu ocp (fun _ => idX) (fun _ => idU) tf) (fun p => ho.cr _ _ _)
    (fun p => ho.g _ _ _) (fun k c => ((localOCP nu ocp lin.x lin.u tf).ce.jac (linEnd (zeroLin nu lin.dx) tf)).ent k c ≠ none)
    ⟨freshMV, freshMV⟩ (Sized.fresh rfl) (Sized.fresh rfl)
  obtain ⟨s', e', -, hb⟩ := update_raw env m hm hN (localOCP nu ocp lin.x lin.u tf) (ho.loc _ _ _) (localAd LX comm) (localAd_ok _ _) tf
    (zeroLin nu lin.dx) _ (fun k c _ _ => Iff.rfl) s hs
  refine ⟨s'.1, ?_, hb⟩
  unfold ocpToQpG
  rw [allocateG_local idX idU env m ocp tf, e, Option.bind_some, updateG_local, e']
  rfl

end

end Verif.OQP
