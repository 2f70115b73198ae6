import Verif.Proofs.OCPQPDyn
import Verif.Proofs.OCPNLPCalls

/-! # The rows of the running and end constraints -/

set_option linter.unusedSectionVars false

namespace Verif.OQP

open Verif.Mesh Verif.Sparse Verif.MeshFn Verif.NLP Verif.QP Verif.QPSpec

variable {N nx nu ncr nce : ℕ}

/-- The linearisation as an assignment of the variables over the mesh. -/
noncomputable def linVars (env : Mesh.Env ℝ) (m : Mesh ℝ) (lin : Lin ℝ nx nu) (tf : ℝ) : Var (nColloc m) nx nu → ℝ
  | .t0 => 0
  | .tf => tf
  | .x i k => lin.x (tf * tauAt env m i) k
  | .u i k => lin.u (tf * tauAt env m i) k

theorem pointList_lin (env : Mesh.Env ℝ) (m : Mesh ℝ) (f : ℝ → Fin nx → ℝ) (g : ℝ → Fin nu → ℝ) (z : Var (nColloc m) nx nu → ℝ)
    (hx : ∀ (i : Fin (nColloc m)) k, z (.x i.castSucc k) = f (tauAt env m i) k)
    (hu : ∀ (i : Fin (nColloc m)) k, z (.u i k) = g (tauAt env m i) k) :
    pointList env m (atNodes env m f) (atNodes env m g) = pointList env m (states z) (inputs z) := by
  rw [pointList_eq]
  have h1 := nodes_length env m
  have h2 := weights_length env m
  unfold pointList atNodes
  apply List.ext_getElem
  · simp; omega
  · intro i hi hi'
    simp only [List.length_ofFn] at hi'
    have e1 : (allNodes env m)[i]'(by omega) = tauAt env m i := by
      simp only [tauAt, List.getD_eq_getElem?_getD]; rw [List.getElem?_eq_getElem (by omega)]; rfl
    have e2 : (allWeights env m)[i]'(by omega) = wAt env m i := by
      simp only [wAt, List.getD_eq_getElem?_getD]; rw [List.getElem?_eq_getElem (by omega)]; rfl
    simp only [List.getElem_zip, List.getElem_range, List.getElem_ofFn, List.getElem_map, pointData, e1, e2]
    have ex := fun k => hx ⟨i, hi'⟩ k
    have eu := fun k => hu ⟨i, hi'⟩ k
    simp only [ex, eu]

theorem lin_points (env : Mesh.Env ℝ) (m : Mesh ℝ) (lin : Lin ℝ nx nu) (tf : ℝ) :
    pointList env m (atNodes env m fun t => lin.x (timeAt tf t)) (atNodes env m fun t => lin.u (timeAt tf t)) =
      pointList env m (states (linVars env m lin tf)) (inputs (linVars env m lin tf)) :=
  pointList_lin env m _ _ _ (fun i k => by simp [linVars, timeAt]) fun i k => by simp [linVars, timeAt]

theorem meshEval_lin {nf : ℕ} (d : ℕ) (env : Mesh.Env ℝ) (m : Mesh ℝ) (fn : Fn ℝ nx nu nf) (lin : Lin ℝ nx nu) (tf : ℝ) (scale : Bool) (o : MV ℝ) :
    meshEval d env m fn 0 tf (atNodes env m fun t => lin.x (timeAt tf t)) (atNodes env m fun t => lin.u (timeAt tf t)) scale o =
      meshEval d env m fn (linVars env m lin tf .t0) (linVars env m lin tf .tf) (states (linVars env m lin tf)) (inputs (linVars env m lin tf)) scale o := by
  unfold meshEval
  rw [lin_points]; rfl

theorem meshIntegrate_lin {nf : ℕ} (d : ℕ) (env : Mesh.Env ℝ) (m : Mesh ℝ) (fn : Fn ℝ nx nu nf) (lin : Lin ℝ nx nu) (tf : ℝ) (o : MV ℝ) :
    meshIntegrate d env m fn 0 tf (atNodes env m fun t => lin.x (timeAt tf t)) (atNodes env m fun t => lin.u (timeAt tf t)) o =
      meshIntegrate d env m fn (linVars env m lin tf .t0) (linVars env m lin tf .tf) (states (linVars env m lin tf)) (inputs (linVars env m lin tf)) o := by
  unfold meshIntegrate
  rw [lin_points]; rfl

/-! ### Stored entries stay stored -/

theorem update_keeps {F : Type*} [Field F] {A B : Sp F} {i j : ℕ} {g : F → F} (h : A.update i j g = some B) {a b : ℕ} (hA : A.ent a b ≠ none) :
    B.ent a b ≠ none := by
  unfold Sp.update at h
  split at h
  · cases h
    simp only
    split
    · exact Option.some_ne_none _
    · exact hA
  · cases h

theorem blockLoop_keeps {F : Type*} [Field F] {op : F → F → F} {r0 c0 : ℕ} {s : F} {up : Bool} (l : List (ℕ × ℕ × F)) {A B : Sp F}
    (h : blockLoop op r0 c0 s up l A = some B) {a b : ℕ} (hA : A.ent a b ≠ none) : B.ent a b ≠ none := by
  induction l generalizing A with
  | nil => cases h; exact hA
  | cons e l ih =>
    obtain ⟨r, c, v⟩ := e
    rw [blockLoop] at h
    split at h
    · split at h
      · cases h
      · next hB => exact ih h (update_keeps hB hA)
    · exact ih h hA

theorem blockAdds_keeps {F : Type*} [Field F] (l : List (Blk F)) {A B : Sp F} (h : blockAdds l A = some B) {a b : ℕ} (hA : A.ent a b ≠ none) :
    B.ent a b ≠ none := by
  induction l generalizing A with
  | nil => cases h; exact hA
  | cons e l ih =>
    rw [blockAdds] at h
    split at h
    · cases h
    · next hB => exact ih h (blockLoop_keeps _ hB hA)

theorem pointStep_keeps {d M : ℕ} {fop : Vec ℝ → Option (Vec ℝ)} {J H : List (Blk ℝ)} {o o' : MV ℝ} (h : pointStep d M fop J H o = some o')
    {a b : ℕ} (hA : o.dF.ent a b ≠ none) : o'.dF.ent a b ≠ none := by
  unfold pointStep at h
  split at h
  · cases h
  · split at h
    · cases h
    · next hdF =>
      split at h
      · cases h
      · cases h
        split at hdF
        · exact blockAdds_keeps _ hdF hA
        · cases hdF; exact hA

theorem iter_keeps {α : Type*} {step : α → MV ℝ → Option (MV ℝ)} {a b : ℕ}
    (hstep : ∀ x o o', step x o = some o' → o.dF.ent a b ≠ none → o'.dF.ent a b ≠ none) (l : List α) {o o' : MV ℝ}
    (h : iter step l o = some o') (hA : o.dF.ent a b ≠ none) : o'.dF.ent a b ≠ none := by
  induction l generalizing o with
  | nil => cases h; exact hA
  | cons x l ih =>
    rw [iter] at h
    split at h
    · cases h
    · next hx => exact ih h (hstep _ _ _ hx hA)

theorem meshEval_keeps {nf d : ℕ} {env : Mesh.Env ℝ} {m : Mesh ℝ} {fn : Fn ℝ nx nu nf} {t0 tf : ℝ} {xs us} {scale : Bool} {o o' : MV ℝ}
    (ha : o.allocated = true) (h : meshEval d env m fn t0 tf xs us scale o = some o') {a b : ℕ} (hA : o.dF.ent a b ≠ none) :
    o'.dF.ent a b ≠ none := by
  unfold meshEval at h
  refine iter_keeps (step := evalPoint d (nColloc m) fn t0 tf scale) (fun x o o' hx => ?_) _ h ?_
  · unfold evalPoint at hx
    exact pointStep_keeps hx
  simp only [MV.setZero, MV.alloc, ha, if_true]
  split
  · simp only [Sparse.setZero]
    cases e : o.dF.ent a b with
    | none => exact absurd e hA
    | some _ => simp
  · exact hA

/-! ### Running constraints -/

/-- A variable of the program as a variable over the mesh. -/
def QVar.toVar : QVar N nx nu → Var N nx nu
  | .x i k => .x i k
  | .u i k => .u i k

theorem toVar_pos (v : QVar N nx nu) : v.toVar.pos = 2 + v.pos := by
  cases v <;> simp only [QVar.toVar, Var.pos, QVar.pos] <;> omega

theorem nodePt_lin (env : Mesh.Env ℝ) (m : Mesh ℝ) (lin : Lin ℝ nx nu) (tf : ℝ) (i : Fin (nColloc m)) :
    nodePt (tauAt env m i) i (linVars env m lin tf) = linPt lin (tf * tauAt env m i) := by
  funext a
  cases a <;> simp [nodePt, linVars, linPt, pt]

theorem pull_toVar (tau : ℝ) (i : Fin N) (φ : Arg nx nu → ℝ) (v : QVar N nx nu) : pull tau i φ v.toVar = pullN i φ v := by
  cases v <;> rfl

theorem extB_mod {n : ℕ} (b : Fin n → Ext ℝ) (i : ℕ) (k : Fin n) : extB b ((n * i + k) % n) = b k := by
  have h : (n * i + (k : ℕ)) % n = k := by rw [Nat.mul_add_mod, Nat.mod_eq_of_lt k.2]
  unfold extB
  simp only [h, k.2, dif_pos, Fin.eta]

/-- What is stored in the rows of the running constraints is stored in the work matrix. -/
def CrStored (N nx nu ncr : ℕ) (s : QPD ℝ × Work ℝ) : Prop :=
  s.2.cr.allocated = true ∧ Sized 1 (ncr * N) (numVars N nx nu) s.2.cr ∧
    ∀ r c, r < ncr * N → c < numV N nx nu → s.1.A.ent (nx * N + r) c ≠ none → s.2.cr.dF.ent r (2 + c) ≠ none

theorem updateCr_spec (env : Mesh.Env ℝ) (m : Mesh ℝ) (ocp : OCP ℝ nx nu 1 ncr nce) (hcr : ∀ p, (ocp.cr.jac p).rows = ncr) (tf : ℝ) (lin : Lin ℝ nx nu)
    (s : QPD ℝ × Work ℝ) (hs : CSize (nColloc m) nx nu ncr nce s.1) (hst : CrStored (nColloc m) nx nu ncr s) :
    ∃ qp cr, updateCr env m ocp tf lin s = some (qp, { s.2 with cr := cr }) ∧ qp.P = s.1.P ∧ qp.q = s.1.q ∧
      CSize (nColloc m) nx nu ncr nce qp ∧ CrStored (nColloc m) nx nu ncr (qp, { s.2 with cr := cr }) ∧
      (∀ (i : Fin (nColloc m)) (k : Fin ncr) (v : QVar (nColloc m) nx nu), qp.A.val (nx * nColloc m + (ncr * i + k)) v.pos =
        pullN i (fun a => (ocp.cr.jac (linPt lin (tf * tauAt env m i))).val k a.pos) v) ∧
      (∀ (i : Fin (nColloc m)) (k : Fin ncr), qp.l.val (nx * nColloc m + (ncr * i + k)) =
        extSub (ocp.crl k) (ocp.cr.val (linPt lin (tf * tauAt env m i)) k)) ∧
      (∀ (i : Fin (nColloc m)) (k : Fin ncr), qp.u.val (nx * nColloc m + (ncr * i + k)) =
        extSub (ocp.cru k) (ocp.cr.val (linPt lin (tf * tauAt env m i)) k)) ∧
      (∀ r, r < nx * nColloc m ∨ nx * nColloc m + ncr * nColloc m ≤ r → ∀ c, qp.A.ent r c = s.1.A.ent r c) ∧
      (∀ r, r < nx * nColloc m ∨ nx * nColloc m + ncr * nColloc m ≤ r → qp.l.val r = s.1.l.val r) ∧
      (∀ r, r < nx * nColloc m ∨ nx * nColloc m + ncr * nColloc m ≤ r → qp.u.val r = s.1.u.val r) := by
  obtain ⟨ha, hsz, hkeep⟩ := hst
  obtain ⟨cr, ecr, H⟩ := mesh_eval_raw 1 env m ocp.cr (fun _ => hcr) false (linVars env m lin tf) s.2.cr (Sized.usable' hsz le_rfl)
  rw [← meshEval_lin] at ecr
  have hk := fun a b => meshEval_keeps (a := a) (b := b) ha ecr
  obtain ⟨hrows, hcols⟩ := H.dF_shape le_rfl
  set S := cr.dF.middleCols 2 (xvarL nx (nColloc m) + uvarL nu (nColloc m)) with hS
  have hSr : S.rows = ncr * nColloc m := hrows
  have hSc : S.cols = numV (nColloc m) nx nu := rfl
  have hnum : numVars (nColloc m) nx nu = 2 + numV (nColloc m) nx nu := by unfold numVars numV; omega
  obtain ⟨A, eA, sA, hA⟩ := blockOp_spec (fun _ b => b) s.1.A (crconB nx (nColloc m)) 0 S 1 false
    (by rw [hSr, hs.A.1]; unfold crconB dconL numC; omega) (by rw [hSc, hs.A.2]; omega)
  have hl := setB_loc s.1.l (crconB nx (nColloc m)) (crconL ncr (nColloc m)) (fun r => extSub (extB ocp.crl (r % ncr)) (cr.F.val r))
    (by rw [hs.l]; unfold crconB crconL dconL numC; omega)
  have hu := setB_loc s.1.u (crconB nx (nColloc m)) (crconL ncr (nColloc m)) (fun r => extSub (extB ocp.cru (r % ncr)) (cr.F.val r))
    (by rw [hs.u]; unfold crconB crconL dconL numC; omega)
  have hB : crconB nx (nColloc m) = nx * nColloc m := rfl
  have hL : crconL ncr (nColloc m) = ncr * nColloc m := rfl
  have hval : ∀ (i : Fin (nColloc m)) (k : Fin ncr), cr.F.val (ncr * i + k) = ocp.cr.val (linPt lin (tf * tauAt env m i)) k := by
    intro i k
    have := H.value (i, k)
    simp only [rowOf, nodePt_lin] at this
    simpa using this
  have hSent : ∀ r c, r < ncr * nColloc m → c < numV (nColloc m) nx nu → S.ent r c = cr.dF.ent r (2 + c) := by
    intro r c h1 h2
    simp only [hS, Sp.middleCols, Sp.block]
    rw [if_pos ⟨by rw [hrows]; exact h1, h2⟩, Nat.zero_add]
  have hin : ∀ r c, r < ncr * nColloc m → c < numV (nColloc m) nx nu →
      InBlock (crconB nx (nColloc m)) 0 S.rows S.cols (nx * nColloc m + r) c := fun r c h1 h2 =>
    ⟨⟨by rw [hB]; omega, by rw [hB, hSr]; omega⟩, Nat.zero_le _, by rw [hSc]; omega⟩
  have hAent : ∀ r c, r < ncr * nColloc m → c < numV (nColloc m) nx nu → A.ent (nx * nColloc m + r) c =
      match cr.dF.ent r (2 + c) with
      | some v => some (1 * v)
      | none => s.1.A.ent (nx * nColloc m + r) c := by
    intro r c h1 h2
    rw [hA, if_pos ⟨hin r c h1 h2, by simp⟩, hB, Nat.add_sub_cancel_left, Nat.sub_zero, hSent r c h1 h2]
    cases cr.dF.ent r (2 + c) <;> rfl
  refine ⟨{ s.1 with A := A
                     l := ⟨s.1.l.size, fun r => ((loc (crconB nx (nColloc m)) (crconL ncr (nColloc m)) r).map
                       fun r => extSub (extB ocp.crl (r % ncr)) (cr.F.val r)).getD (s.1.l.val r)⟩
                     u := ⟨s.1.u.size, fun r => ((loc (crconB nx (nColloc m)) (crconL ncr (nColloc m)) r).map
                       fun r => extSub (extB ocp.cru (r % ncr)) (cr.F.val r)).getD (s.1.u.val r)⟩ }, cr, ?_, rfl, rfl,
    ⟨⟨sA.1.trans hs.A.1, sA.2.1.trans hs.A.2⟩, hs.l, hs.u⟩, ⟨H.allocated, H.sized, ?_⟩, ?_, ?_, ?_, ?_, ?_, ?_⟩
  · unfold updateCr
    have hsize : cr.F.size = crconL ncr (nColloc m) := H.size
    have eA' : blockWrite s.1.A (crconB nx (nColloc m)) 0 S = some A := eA
    simp only [ecr]
    rw [eA']
    simp only [if_pos hsize, hl, hu]
  · intro r c h1 h2 h3
    simp only at h3 ⊢
    rw [hAent r c h1 h2] at h3
    cases e : cr.dF.ent r (2 + c) with
    | some v => simp
    | none =>
      rw [e] at h3
      exact absurd e (hk _ _ (hkeep r c h1 h2 h3))
  · intro i k v
    have h1 := row_le i k
    have h2 := v.pos_lt
    have hj := H.jac le_rfl (i, k) v.toVar
    simp only [nodePt_lin, pull_toVar, toVar_pos, Bool.false_eq_true, if_false, one_mul] at hj
    rw [← hj]
    unfold Sp.val
    simp only [rowOf]
    rw [hAent _ _ h1 h2]
    cases e : cr.dF.ent (ncr * i + k) (2 + v.pos) with
    | some v => simp
    | none =>
      simp only [Option.getD_none]
      cases e' : s.1.A.ent (nx * nColloc m + (ncr * i + k)) v.pos with
      | none => rfl
      | some w => exact absurd e (hk _ _ (hkeep _ _ h1 h2 (by rw [e']; simp)))
  · intro i k
    simp only
    rw [loc_some (a := ncr * i + k) (by rw [hB]) (by rw [hL]; exact row_le i k)]
    simp only [Option.map_some, Option.getD_some, extB_mod, hval]
  · intro i k
    simp only
    rw [loc_some (a := ncr * i + k) (by rw [hB]) (by rw [hL]; exact row_le i k)]
    simp only [Option.map_some, Option.getD_some, extB_mod, hval]
  · intro r hr c
    simp only
    rw [hA, if_neg]
    rintro ⟨⟨⟨h1, h2⟩, -⟩, -⟩
    rw [hB] at h1; rw [hB, hSr] at h2
    omega
  · intro r hr
    simp only
    rw [loc_none (by rw [hB, hL]; exact hr)]
    rfl
  · intro r hr
    simp only
    rw [loc_none (by rw [hB, hL]; exact hr)]
    rfl

/-! ### End constraints -/

/-- What may be stored in the rows of the end constraints, when `S` is the pattern of the Jacobian of the end constraints. -/
def CeStored (N nx nu ncr nce : ℕ) (S : ℕ → ℕ → Prop) (A : Sp ℝ) : Prop :=
  ∀ (k : Fin nce) (v : QVar N nx nu), A.ent (nx * N + ncr * N + k) v.pos ≠ none →
    match v with
    | .x j l => j = 0 ∧ S k (1 + l) ∨ j = Fin.last N ∧ S k (1 + nx + l)
    | .u _ _ => False

theorem updateCe_ents (m : Mesh ℝ) (hN : 1 ≤ nColloc m) (ocp : OCP ℝ nx nu 1 ncr nce) (hrow : ∀ p, (ocp.ce.jac p).rows = nce)
    (tf : ℝ) (lin : Lin ℝ nx nu) (s : QPD ℝ × Work ℝ) (hs : CSize (nColloc m) nx nu ncr nce s.1) :
    ∃ qp, updateCe m ocp tf lin s = some (qp, s.2) ∧ qp.P = s.1.P ∧ qp.q = s.1.q ∧ CSize (nColloc m) nx nu ncr nce qp ∧
      (∀ (k : Fin nce) (l : Fin nx), qp.A.ent (nx * nColloc m + ncr * nColloc m + k) (nx * ((0 : Fin (nColloc m + 1)) : ℕ) + l) =
        match (ocp.ce.jac (linEnd lin tf)).ent k (1 + l) with
        | some v => some (1 * v)
        | none => s.1.A.ent (nx * nColloc m + ncr * nColloc m + k) (nx * ((0 : Fin (nColloc m + 1)) : ℕ) + l)) ∧
      (∀ (k : Fin nce) (l : Fin nx), qp.A.ent (nx * nColloc m + ncr * nColloc m + k) (nx * ((Fin.last (nColloc m) : Fin (nColloc m + 1)) : ℕ) + l) =
        match (ocp.ce.jac (linEnd lin tf)).ent k (1 + nx + l) with
        | some v => some (1 * v)
        | none => s.1.A.ent (nx * nColloc m + ncr * nColloc m + k) (nx * ((Fin.last (nColloc m) : Fin (nColloc m + 1)) : ℕ) + l)) ∧
      (∀ (r : ℕ) (j : Fin (nColloc m + 1)) (l : Fin nx), j ≠ 0 → j ≠ Fin.last (nColloc m) → qp.A.ent r (nx * j + l) = s.1.A.ent r (nx * j + l)) ∧
      (∀ (r : ℕ) (j : Fin (nColloc m)) (l : Fin nu), qp.A.ent r (nx * (nColloc m + 1) + nu * j + l) = s.1.A.ent r (nx * (nColloc m + 1) + nu * j + l)) ∧
      (∀ k : Fin nce, qp.l.val (nx * nColloc m + ncr * nColloc m + k) = extSub (ocp.cel k) (ocp.ce.val (linEnd lin tf) k)) ∧
      (∀ k : Fin nce, qp.u.val (nx * nColloc m + ncr * nColloc m + k) = extSub (ocp.ceu k) (ocp.ce.val (linEnd lin tf) k)) ∧
      (∀ r, r < nx * nColloc m + ncr * nColloc m → ∀ c, qp.A.ent r c = s.1.A.ent r c) ∧
      (∀ r, r < nx * nColloc m + ncr * nColloc m → qp.l.val r = s.1.l.val r) ∧
      (∀ r, r < nx * nColloc m + ncr * nColloc m → qp.u.val r = s.1.u.val r) := by
  set N := nColloc m with hNd
  have he : endLin lin tf = linEnd lin tf := by funext a; cases a <;> rfl
  set J := ocp.ce.jac (linEnd lin tf) with hJ
  have hJr : J.rows = nce := hrow _
  have hB : ceconB nx ncr N = nx * N + ncr * N := rfl
  have hX : xvarB + xvarL nx N - nx = nx * N := by unfold xvarB xvarL; rw [Nat.mul_succ]; omega
  obtain ⟨A1, e1, s1, h1⟩ := blockOp_spec (fun _ b => b) s.1.A (ceconB nx ncr N) xvarB (J.middleCols 1 nx) 1 false
    (by rw [hs.A.1, hB]; change _ + J.rows ≤ _; rw [hJr]; unfold numC; omega)
    (by rw [hs.A.2]; change 0 + nx ≤ _; unfold numV; rw [Nat.mul_succ]; omega)
  obtain ⟨A2, e2, s2, h2⟩ := blockOp_spec (fun _ b => b) A1 (ceconB nx ncr N) (xvarB + xvarL nx N - nx) (J.middleCols (1 + nx) nx) 1 false
    (by rw [s1.1, hs.A.1, hB]; change _ + J.rows ≤ _; rw [hJr]; unfold numC; omega)
    (by rw [s1.2.1, hs.A.2, hX]; change _ + nx ≤ _; unfold numV; rw [Nat.mul_succ]; omega)
  have hl := setB_loc s.1.l (ceconB nx ncr N) (cecI nce) (fun r => extSub (extB ocp.cel r) (ext (ocp.ce.val (linEnd lin tf)) r))
    (by rw [hs.l, hB]; unfold cecI numC; omega)
  have hu := setB_loc s.1.u (ceconB nx ncr N) (cecI nce) (fun r => extSub (extB ocp.ceu r) (ext (ocp.ce.val (linEnd lin tf)) r))
    (by rw [hs.u, hB]; unfold cecI numC; omega)
  have hmid : ∀ (c0 : ℕ) (k : Fin nce) (l : Fin nx), (J.middleCols c0 nx).ent k l = J.ent k (c0 + l) := by
    intro c0 k l
    simp only [Sp.middleCols, Sp.block]
    rw [if_pos ⟨by rw [hJr]; exact k.2, l.2⟩, Nat.zero_add]
  have hx0 : ∀ (k : Fin nce) (l : Fin nx), A2.ent (nx * N + ncr * N + k) (nx * ((0 : Fin (N + 1)) : ℕ) + l) =
      match J.ent k (1 + l) with
      | some v => some (1 * v)
      | none => s.1.A.ent (nx * N + ncr * N + k) (nx * ((0 : Fin (N + 1)) : ℕ) + l) := by
    intro k l
    have hl := l.2
    have hge : nx ≤ nx * N := Nat.le_mul_of_pos_right _ hN
    rw [h2, if_neg, h1, if_pos]
    · rw [hB, Nat.add_sub_cancel_left]
      simp only [Fin.val_zero, Nat.mul_zero, Nat.zero_add, xvarB, Nat.sub_zero, hmid]
      cases J.ent k (1 + l) <;> rfl
    · refine ⟨⟨⟨by rw [hB]; omega, ?_⟩, Nat.zero_le _, ?_⟩, by simp⟩
      · rw [hB]; change _ < _ + J.rows; rw [hJr]; have := k.2; omega
      · change _ < 0 + nx; simp
    · rintro ⟨⟨-, h, -⟩, -⟩
      rw [hX] at h
      simp at h; omega
  have hxN : ∀ (k : Fin nce) (l : Fin nx), A2.ent (nx * N + ncr * N + k) (nx * ((Fin.last N : Fin (N + 1)) : ℕ) + l) =
      match J.ent k (1 + nx + l) with
      | some v => some (1 * v)
      | none => s.1.A.ent (nx * N + ncr * N + k) (nx * ((Fin.last N : Fin (N + 1)) : ℕ) + l) := by
    intro k l
    have hl := l.2
    have hge : nx ≤ nx * N := Nat.le_mul_of_pos_right _ hN
    rw [h2, if_pos]
    · rw [hB, hX, Nat.add_sub_cancel_left, Fin.val_last, Nat.add_sub_cancel_left, hmid]
      cases J.ent k (1 + nx + l) with
      | some v => rfl
      | none =>
        simp only
        rw [h1, if_neg]
        rintro ⟨⟨-, -, h⟩, -⟩
        change _ < 0 + nx at h
        omega
    · refine ⟨⟨⟨by rw [hB]; omega, ?_⟩, ?_, ?_⟩, by simp⟩
      · rw [hB]; change _ < _ + J.rows; rw [hJr]; have := k.2; omega
      · rw [hX, Fin.val_last]; omega
      · rw [hX, Fin.val_last]; change _ < _ + nx; omega
  have hother : ∀ (r c : ℕ), r < nx * N + ncr * N ∨ (nx ≤ c ∧ (c < nx * N ∨ nx * N + nx ≤ c)) → A2.ent r c = s.1.A.ent r c := by
    intro r c h
    rw [h2, if_neg, h1, if_neg]
    · rintro ⟨⟨⟨ha, -⟩, -, hb⟩, -⟩
      rw [hB] at ha
      change _ < 0 + nx at hb
      omega
    · rintro ⟨⟨⟨ha, -⟩, hb, hc⟩, -⟩
      rw [hB] at ha
      rw [hX] at hb hc
      change _ < _ + nx at hc
      omega
  have hoth' : ∀ (r : ℕ) (j : Fin (N + 1)) (l : Fin nx), j ≠ 0 → j ≠ Fin.last N → A2.ent r (nx * j + l) = s.1.A.ent r (nx * j + l) := by
    intro r j l h0 hL
    refine hother _ _ (Or.inr ⟨?_, Or.inl ?_⟩)
    · have : 1 ≤ (j : ℕ) := by
        by_contra hc
        exact h0 (Fin.ext (by rw [Fin.val_zero]; omega))
      have := Nat.mul_le_mul_left nx this
      omega
    · have hj : (j : ℕ) < N := by
        have := j.2
        by_contra hc
        exact hL (Fin.ext (by rw [Fin.val_last]; omega))
      exact row_le ⟨j, hj⟩ l
  have hothu : ∀ (r : ℕ) (j : Fin N) (l : Fin nu), A2.ent r (nx * (N + 1) + nu * j + l) = s.1.A.ent r (nx * (N + 1) + nu * j + l) := by
    intro r j l
    have : nx * (N + 1) = nx * N + nx := Nat.mul_succ _ _
    exact hother _ _ (Or.inr ⟨by omega, Or.inr (by omega)⟩)
  refine ⟨{ s.1 with A := A2
                     l := ⟨s.1.l.size, fun r => ((loc (ceconB nx ncr N) (cecI nce) r).map
                       fun r => extSub (extB ocp.cel r) (ext (ocp.ce.val (linEnd lin tf)) r)).getD (s.1.l.val r)⟩
                     u := ⟨s.1.u.size, fun r => ((loc (ceconB nx ncr N) (cecI nce) r).map
                       fun r => extSub (extB ocp.ceu r) (ext (ocp.ce.val (linEnd lin tf)) r)).getD (s.1.u.val r)⟩ }, ?_, rfl, rfl,
    ⟨⟨(s2.1.trans s1.1).trans hs.A.1, (s2.2.1.trans s1.2.1).trans hs.A.2⟩, hs.l, hs.u⟩, hx0, hxN, hoth', hothu, ?_, ?_, ?_, ?_, ?_⟩
  · unfold updateCe
    have e1' : blockWrite s.1.A (ceconB nx ncr N) xvarB (J.middleCols 1 nx) = some A1 := e1
    have e2' : blockWrite A1 (ceconB nx ncr N) (xvarB + xvarL nx N - nx) (J.middleCols (1 + nx) nx) = some A2 := e2
    simp only [he, ← hNd, ← hJ, e1', e2', hl, hu]
  · intro k
    simp only
    rw [loc_some (s := ceconB nx ncr N) (l := cecI nce) (a := (k : ℕ)) (by rw [hB]) k.2]
    simp [extB, ext]
  · intro k
    simp only
    rw [loc_some (s := ceconB nx ncr N) (l := cecI nce) (a := (k : ℕ)) (by rw [hB]) k.2]
    simp [extB, ext]
  · intro r hr c
    exact hother r c (Or.inl hr)
  · intro r hr
    simp only
    rw [loc_none (by rw [hB]; omega)]
    rfl
  · intro r hr
    simp only
    rw [loc_none (by rw [hB]; omega)]
    rfl


theorem updateCe_spec (m : Mesh ℝ) (hN : 1 ≤ nColloc m) (ocp : OCP ℝ nx nu 1 ncr nce) (hrow : ∀ p, (ocp.ce.jac p).rows = nce) (S : ℕ → ℕ → Prop)
    (tf : ℝ) (lin : Lin ℝ nx nu)
    (hS : ∀ (k : Fin nce) c, 1 ≤ c → c < 1 + 2 * nx → (S k c ↔ (ocp.ce.jac (linEnd lin tf)).ent k c ≠ none))
    (s : QPD ℝ × Work ℝ) (hs : CSize (nColloc m) nx nu ncr nce s.1) (hst : CeStored (nColloc m) nx nu ncr nce S s.1.A) :
    ∃ qp, updateCe m ocp tf lin s = some (qp, s.2) ∧ qp.P = s.1.P ∧ qp.q = s.1.q ∧
      CSize (nColloc m) nx nu ncr nce qp ∧ CeStored (nColloc m) nx nu ncr nce S qp.A ∧
      (∀ (k : Fin nce) (v : QVar (nColloc m) nx nu), qp.A.val (nx * nColloc m + ncr * nColloc m + k) v.pos =
        pullQ (fun a => (ocp.ce.jac (linEnd lin tf)).val k a.pos) v) ∧
      (∀ k : Fin nce, qp.l.val (nx * nColloc m + ncr * nColloc m + k) = extSub (ocp.cel k) (ocp.ce.val (linEnd lin tf) k)) ∧
      (∀ k : Fin nce, qp.u.val (nx * nColloc m + ncr * nColloc m + k) = extSub (ocp.ceu k) (ocp.ce.val (linEnd lin tf) k)) ∧
      (∀ r, r < nx * nColloc m + ncr * nColloc m → ∀ c, qp.A.ent r c = s.1.A.ent r c) ∧
      (∀ r, r < nx * nColloc m + ncr * nColloc m → qp.l.val r = s.1.l.val r) ∧
      (∀ r, r < nx * nColloc m + ncr * nColloc m → qp.u.val r = s.1.u.val r) := by
  obtain ⟨qp, e, hP, hq, hC, hx0, hxN, hoth', hothu, hl, hu, hk, hkl, hku⟩ := updateCe_ents m hN ocp hrow tf lin s hs
  set N := nColloc m with hNd
  set J := ocp.ce.jac (linEnd lin tf) with hJ
  have h0L : (0 : Fin (N + 1)) ≠ Fin.last N := by
    intro h
    have h := congrArg Fin.val h
    rw [Fin.val_zero, Fin.val_last] at h
    omega
  have hS0 : ∀ (k : Fin nce) (l : Fin nx), S k (1 + l) ↔ J.ent k (1 + l) ≠ none := fun k l =>
    hS k _ (by omega) (by have := l.2; omega)
  have hSN : ∀ (k : Fin nce) (l : Fin nx), S k (1 + nx + l) ↔ J.ent k (1 + nx + l) ≠ none := fun k l =>
    hS k _ (by omega) (by have := l.2; omega)
  have hst0 : ∀ (k : Fin nce) (l : Fin nx), J.ent k (1 + l) = none → s.1.A.ent (nx * N + ncr * N + k) (nx * ((0 : Fin (N + 1)) : ℕ) + l) = none := by
    intro k l h
    by_contra hc
    rcases hst k (.x 0 l) hc with ⟨-, h'⟩ | ⟨h', -⟩
    · exact (hS0 k l).1 h' h
    · exact h0L h'
  have hstN : ∀ (k : Fin nce) (l : Fin nx), J.ent k (1 + nx + l) = none →
      s.1.A.ent (nx * N + ncr * N + k) (nx * ((Fin.last N : Fin (N + 1)) : ℕ) + l) = none := by
    intro k l h
    by_contra hc
    rcases hst k (.x (Fin.last N) l) hc with ⟨h', -⟩ | ⟨-, h'⟩
    · exact h0L h'.symm
    · exact (hSN k l).1 h' h
  refine ⟨qp, e, hP, hq, hC, ?_, ?_, hl, hu, hk, hkl, hku⟩
  · intro k v hv
    cases v with
    | x j l =>
      simp only [QVar.pos] at hv ⊢
      by_cases hj : j = 0
      · subst hj
        refine Or.inl ⟨rfl, (hS0 k l).2 fun hn => hv ?_⟩
        rw [hx0, hn]
        exact hst0 k l hn
      · by_cases hj' : j = Fin.last N
        · subst hj'
          refine Or.inr ⟨rfl, (hSN k l).2 fun hn => hv ?_⟩
          rw [hxN, hn]
          exact hstN k l hn
        · rw [hoth' _ j l hj hj'] at hv
          exact hst k (.x j l) hv
    | u j l =>
      simp only [QVar.pos] at hv ⊢
      rw [hothu] at hv
      exact hst k (.u j l) hv
  · intro k v
    cases v with
    | x j l =>
      simp only [QVar.pos, pullQ]
      by_cases hj : j = 0
      · subst hj
        rw [if_pos rfl, if_neg h0L, add_zero]
        unfold Sp.val
        rw [hx0]
        simp only [EArg.pos]
        cases e : J.ent k (1 + l) with
        | some v => simp
        | none => simp only [hst0 k l e]
      · by_cases hj' : j = Fin.last N
        · subst hj'
          rw [if_neg hj, if_pos rfl, zero_add]
          unfold Sp.val
          rw [hxN]
          simp only [EArg.pos]
          cases e : J.ent k (1 + nx + l) with
          | some v => simp
          | none => simp only [hstN k l e]
        · rw [if_neg hj, if_neg hj', add_zero]
          unfold Sp.val
          rw [hoth' _ j l hj hj']
          cases e : s.1.A.ent (nx * N + ncr * N + k) (nx * j + l) with
          | none => rfl
          | some w =>
            rcases hst k (.x j l) (by simp only [QVar.pos]; rw [e]; simp) with ⟨h, -⟩ | ⟨h, -⟩
            · exact absurd h hj
            · exact absurd h hj'
    | u j l =>
      simp only [QVar.pos, pullQ]
      unfold Sp.val
      rw [hothu]
      cases e : s.1.A.ent (nx * N + ncr * N + k) (nx * (N + 1) + nu * j + l) with
      | none => rfl
      | some w => exact (hst k (.u j l) (by simp only [QVar.pos]; rw [e]; simp)).elim

end Verif.OQP
