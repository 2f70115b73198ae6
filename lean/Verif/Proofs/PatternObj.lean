import Verif.Proofs.Pattern
import Verif.Proofs.OCPNLPCalls

/-! # Stored positions of the results of `OCPNLP` -/

set_option linter.unusedSectionVars false

namespace Verif.Pattern

open Verif.Sparse Verif.MeshFn Verif.Mesh Verif.NLP

variable {nx nu nq ncr nce : ℕ} {env : Mesh.Env ℝ} {ocp : OCP ℝ nx nu nq ncr nce} {m : Mesh ℝ}

theorem dgdx_parts {x : Vec ℝ} {s s' : Obj ℝ} (h : Obj.dgdx env ocp m x s = some s') :
    ∃ dyn int cr A1 A2 A3,
      meshDyn 1 env m ocp.f 0 (endArgs nx nu nq (nColloc m) x .tf) (colsX nx nu nq (nColloc m) x) (colsU nx nu nq (nColloc m) x) s.dyn1 = some dyn ∧
      meshIntegrate 1 env m ocp.g 0 (endArgs nx nu nq (nColloc m) x .tf) (colsX nx nu nq (nColloc m) x) (colsU nx nu nq (nColloc m) x) s.int1 = some int ∧
      meshEval 1 env m ocp.cr 0 (endArgs nx nu nq (nColloc m) x .tf) (colsX nx nu nq (nColloc m) x) (colsU nx nu nq (nColloc m) x) true s.cr1 = some cr ∧
      blockAdds (meshJacBlocks nx nu nq (nColloc m) (dB nx nq ncr nce (nColloc m)) (wScaling env m) dyn.dF ++
        meshJacBlocks nx nu nq (nColloc m) (qcB nx nq ncr nce (nColloc m)) (wScaling env m) int.dF) (Sparse.setZero s.dg) = some A1 ∧
      blockAddIdentity A1 (qcB nx nq ncr nce (nColloc m)) (qB nx nu nq (nColloc m)) (qL nq) (-wScaling env m) = some A2 ∧
      blockAdds (meshJacBlocks nx nu nq (nColloc m) (crB nx nq ncr nce (nColloc m)) (wScaling env m) cr.dF ++
        endJacBlocks nx nu nq (nColloc m) (ceB nx nq ncr nce (nColloc m)) (ocp.ce.jac (endArgs nx nu nq (nColloc m) x))) A2 = some A3 ∧
      s' = { s with dg := A3, dyn1 := dyn, int1 := int, cr1 := cr } := by
  unfold Obj.dgdx at h
  dsimp only at h
  by_cases hx : x.size = numX nx nu nq (nColloc m)
  · rw [if_pos hx] at h
    split at h
    · exact absurd h (by simp)
    rename_i dyn e1
    split at h
    · exact absurd h (by simp)
    rename_i int e2
    split at h
    · exact absurd h (by simp)
    rename_i cr e3
    split at h
    · exact absurd h (by simp)
    rename_i A1 e4
    split at h
    · exact absurd h (by simp)
    rename_i A2 e5
    split at h
    · exact absurd h (by simp)
    rename_i A3 e6
    exact ⟨dyn, int, cr, A1, A2, A3, e1, e2, e3, e4, e5, e6, (Option.some.inj h).symm⟩
  · rw [if_neg hx] at h
    exact absurd h (by simp)

theorem d2gdx2_parts {x lambda : Vec ℝ} {s s' : Obj ℝ} (h : Obj.d2gdx2 env ocp m x lambda s = some s') :
    ∃ dyn int cr A,
      meshDyn 2 env m ocp.f 0 (endArgs nx nu nq (nColloc m) x .tf) (colsX nx nu nq (nColloc m) x) (colsU nx nu nq (nColloc m) x)
        { s.dyn2 with lambda := Vec.seg lambda (dB nx nq ncr nce (nColloc m)) (dL nx (nColloc m)) } = some dyn ∧
      meshIntegrate 2 env m ocp.g 0 (endArgs nx nu nq (nColloc m) x .tf) (colsX nx nu nq (nColloc m) x) (colsU nx nu nq (nColloc m) x)
        { s.int2 with lambda := Vec.seg lambda (qcB nx nq ncr nce (nColloc m)) (qL nq) } = some int ∧
      meshEval 2 env m ocp.cr 0 (endArgs nx nu nq (nColloc m) x .tf) (colsX nx nu nq (nColloc m) x) (colsU nx nu nq (nColloc m) x) true
        { s.cr2 with lambda := Vec.seg lambda (crB nx nq ncr nce (nColloc m)) (crL ncr (nColloc m)) } = some cr ∧
      blockAdds (meshHessBlocks nx nu nq (nColloc m) (wScaling env m) [dyn.d2F, int.d2F, cr.d2F] ++
        (List.range nce).flatMap fun j => endHessBlocks nx nu nq (nColloc m) j (lambda.val (ceB nx nq ncr nce (nColloc m) + j))
          (ocp.ce.hess (endArgs nx nu nq (nColloc m) x))) (Sparse.setZero s.d2g) = some A ∧
      s' = { s with d2g := A, dyn2 := dyn, int2 := int, cr2 := cr } := by
  unfold Obj.d2gdx2 at h
  dsimp only at h
  by_cases hx : x.size = numX nx nu nq (nColloc m) ∧ lambda.size = numG nx nq ncr nce (nColloc m)
  · rw [if_pos hx] at h
    split at h
    · exact absurd h (by simp)
    rename_i dyn e1
    split at h
    · exact absurd h (by simp)
    rename_i int e2
    split at h
    · exact absurd h (by simp)
    rename_i cr e3
    split at h
    · exact absurd h (by simp)
    rename_i A e4
    exact ⟨dyn, int, cr, A, e1, e2, e3, e4, (Option.some.inj h).symm⟩
  · rw [if_neg hx] at h
    exact absurd h (by simp)

theorem d2fdx2_parts {x : Vec ℝ} {s s' : Obj ℝ} (h : Obj.d2fdx2 ocp m x s = some s') :
    ∃ A, blockAdds (endHessBlocks nx nu nq (nColloc m) 0 1 (ocp.theta.hess (endArgs nx nu nq (nColloc m) x))) (Sparse.setZero s.d2f) = some A ∧
      s' = { s with d2f := A } := by
  unfold Obj.d2fdx2 at h
  dsimp only at h
  by_cases hx : x.size = numX nx nu nq (nColloc m)
  · rw [if_pos hx] at h
    split at h
    · exact absurd h (by simp)
    rename_i A e4
    exact ⟨A, e4, (Option.some.inj h).symm⟩
  · rw [if_neg hx] at h
    exact absurd h (by simp)

theorem meshJacBlocks_same (nx nu nq N r0 : ℕ) (w : ℝ) {A B : Sp ℝ} (h : SameP A B) :
    List.Forall₂ SameB (meshJacBlocks nx nu nq N r0 w A) (meshJacBlocks nx nu nq N r0 w B) := by
  unfold meshJacBlocks
  repeat (first | exact .nil | refine .cons ⟨rfl, rfl, rfl, h.middleCols _ _⟩ ?_)

theorem endJacBlocks_same (nx nu nq N r0 : ℕ) {A B : Sp ℝ} (h : SameP A B) :
    List.Forall₂ SameB (endJacBlocks nx nu nq N r0 A) (endJacBlocks nx nu nq N r0 B) := by
  unfold endJacBlocks
  repeat (first | exact .nil | refine .cons ⟨rfl, rfl, rfl, h.middleCols _ _⟩ ?_)

theorem endHessBlocks_same (nx nu nq N j : ℕ) (l l' : ℝ) {A B : Sp ℝ} (h : SameP A B) :
    List.Forall₂ SameB (endHessBlocks nx nu nq N j l A) (endHessBlocks nx nu nq N j l' B) := by
  unfold endHessBlocks
  repeat (first | exact .nil | refine .cons ⟨rfl, rfl, rfl, h.block _ _ _ _⟩ ?_)

theorem meshHessBlocks_same (nx nu nq N : ℕ) (w : ℝ) {A B C A' B' C' : Sp ℝ} (h1 : SameP A A') (h2 : SameP B B') (h3 : SameP C C') :
    List.Forall₂ SameB (meshHessBlocks nx nu nq N w [A, B, C]) (meshHessBlocks nx nu nq N w [A', B', C']) := by
  unfold meshHessBlocks
  simp only [List.map_cons, List.map_nil, List.cons_append, List.nil_append]
  repeat (first | exact .nil | refine .cons ⟨rfl, rfl, rfl, h1.block _ _ _ _⟩ ?_ | refine .cons ⟨rfl, rfl, rfl, h2.block _ _ _ _⟩ ?_ |
    refine .cons ⟨rfl, rfl, rfl, h3.block _ _ _ _⟩ ?_)

/-- What may be stored: at most the positions of three reference calls on a new object. -/
structure PInv (r1 r2 r3 s : Obj ℝ) : Prop where
  order : s.dg.rowMajor = false
  dg : ∀ i j, pat s.dg i j → pat r1.dg i j
  dyn1 : ∀ i j, oldJ s.dyn1 i j → pat r1.dyn1.dF i j
  int1 : ∀ i j, oldJ s.int1 i j → pat r1.int1.dF i j
  cr1 : ∀ i j, oldJ s.cr1 i j → pat r1.cr1.dF i j
  d2f : ∀ i j, pat s.d2f i j → pat r2.d2f i j
  d2g : ∀ i j, pat s.d2g i j → pat r3.d2g i j
  dyn2 : ∀ i j, oldH s.dyn2 i j → pat r3.dyn2.d2F i j
  int2 : ∀ i j, oldH s.int2 i j → pat r3.int2.d2F i j
  cr2 : ∀ i j, oldH s.cr2 i j → pat r3.cr2.d2F i j

theorem init_pinv (r1 r2 r3 : Obj ℝ) (N : ℕ) : PInv r1 r2 r3 (Obj.init nx nu nq ncr nce N) := by
  constructor
  · rfl
  all_goals
    intro i j h
    first
    | exact absurd h (empty_pat _ _ _ _)
    | exact absurd h.1 (by simp [Obj.init, freshMV])

section
variable {r1 r2 r3 : Obj ℝ} {x0 l0 : Vec ℝ} (hd : IsDrOCP ocp) (hf : FixedOCP ocp) (hm : m ≠ []) (hK : ∀ v ∈ m, 1 ≤ v.K) (hq : 1 ≤ nq)
  (hx0 : x0.size = nVars (nColloc m) nx nu nq) (hl0 : l0.size = nCons (nColloc m) nx nq ncr nce)
include hd hf hm hK

include hx0 in
theorem dgdx_pat (e1 : Obj.dgdx env ocp m x0 (Obj.init nx nu nq ncr nce (nColloc m)) = some r1) {s s' : Obj ℝ}
    (hs : Inv nx nu nq ncr nce (nColloc m) s) (hp : PInv r1 r2 r3 s) {x : Vec ℝ} (hx : x.size = nVars (nColloc m) nx nu nq)
    (e : Obj.dgdx env ocp m x s = some s') : PInv r1 r2 r3 s' ∧ ∀ i j, pat s'.dg i j ↔ pat r1.dg i j := by
  have hi := init_inv (nx := nx) (nu := nu) (nq := nq) (ncr := ncr) (nce := nce) (nColloc m)
  obtain ⟨o1, o2, o3, f1, f2, f3, H1, H2, H3⟩ := mesh_calls 1 env m hm hK ocp (fun _ => ⟨hd.f, hd.g, hd.cr⟩) (by omega) (IsVec.of_size hx)
    (Sized.usable' hs.dyn1 le_rfl) (Sized.usable' hs.int1 le_rfl) (Sized.usable' hs.cr1 le_rfl)
  obtain ⟨p1, p2, p3, g1, g2, g3, G1, G2, G3⟩ := mesh_calls 1 env m hm hK ocp (fun _ => ⟨hd.f, hd.g, hd.cr⟩) (by omega) (IsVec.of_size hx0)
    (Sized.usable' hi.dyn1 le_rfl) (Sized.usable' hi.int1 le_rfl) (Sized.usable' hi.cr1 le_rfl)
  obtain ⟨dyn, int, cr, A1, A2, A3, a1, a2, a3, a4, a5, a6, rfl⟩ := dgdx_parts e
  obtain ⟨dyn', int', cr', B1, B2, B3, b1, b2, b3, b4, b5, b6, rfl⟩ := dgdx_parts e1
  obtain rfl : o1 = dyn := Option.some.inj (f1.symm.trans a1)
  obtain rfl : o2 = int := Option.some.inj (f2.symm.trans a2)
  obtain rfl : o3 = cr := Option.some.inj (f3.symm.trans a3)
  obtain rfl : p1 = dyn' := Option.some.inj (g1.symm.trans b1)
  obtain rfl : p2 = int' := Option.some.inj (g2.symm.trans b2)
  obtain rfl : p3 = cr' := Option.some.inj (g3.symm.trans b3)
  have lx : (colsX nx nu nq (nColloc m) x).length = (colsX nx nu nq (nColloc m) x0).length := by
    rw [colsX, colsX, cols, cols, List.length_map, List.length_map]
  have lu : (colsU nx nu nq (nColloc m) x).length = (colsU nx nu nq (nColloc m) x0).length := by
    rw [colsU, colsU, cols, cols, List.length_map, List.length_map]
  have q1 : ∀ i j, pat o1.dF i j ↔ pat p1.dF i j := fun i j =>
    ((meshDyn_rel hf.f lx lu rfl a1 b1).jac le_rfl i j).trans ⟨fun h => h.elim id (hp.dyn1 i j), .inl⟩
  have q2 : ∀ i j, pat o2.dF i j ↔ pat p2.dF i j := fun i j =>
    ((meshIntegrate_rel hf.g lx lu rfl a2 b2).jac le_rfl i j).trans ⟨fun h => h.elim id (hp.int1 i j), .inl⟩
  have q3 : ∀ i j, pat o3.dF i j ↔ pat p3.dF i j := fun i j =>
    ((meshEval_rel hf.cr lx lu rfl a3 b3).jac le_rfl i j).trans ⟨fun h => h.elim id (hp.cr1 i j), .inl⟩
  have s1 : SameP o1.dF p1.dF := ⟨(H1.dF_shape le_rfl).1.trans (G1.dF_shape le_rfl).1.symm, (H1.dF_shape le_rfl).2.trans (G1.dF_shape le_rfl).2.symm, q1⟩
  have s2 : SameP o2.dF p2.dF := ⟨(H2.dF_shape le_rfl).1.trans (G2.dF_shape le_rfl).1.symm, (H2.dF_shape le_rfl).2.trans (G2.dF_shape le_rfl).2.symm, q2⟩
  have s3 : SameP o3.dF p3.dF := ⟨(H3.dF_shape le_rfl).1.trans (G3.dF_shape le_rfl).1.symm, (H3.dF_shape le_rfl).2.trans (G3.dF_shape le_rfl).2.symm, q3⟩
  have t0 : Rel (pat s.dg) s.dg (Obj.init (F := ℝ) nx nu nq ncr nce (nColloc m)).dg := fun i j =>
    ⟨fun h => .inr h, fun h => h.resolve_left (empty_pat _ _ _ _)⟩
  have t1 := blockAdds_rel (List.rel_append (meshJacBlocks_same nx nu nq (nColloc m) _ _ s1) (meshJacBlocks_same nx nu nq (nColloc m) _ _ s2)) (setZero_rel t0) a4 b4
  have t2 := identity_rel t1 a5 b5
  have t3 := blockAdds_rel (List.rel_append (meshJacBlocks_same nx nu nq (nColloc m) _ _ s3) (endJacBlocks_same nx nu nq (nColloc m) _ (hf.ce.jac _ _))) t2 a6 b6
  have q4 : ∀ i j, pat A3 i j ↔ pat B3 i j := fun i j => (t3 i j).trans ⟨fun h => h.elim id (hp.dg i j), .inl⟩
  refine ⟨{ hp with
    order := ?_
    dg := fun i j h => (q4 i j).1 h
    dyn1 := fun i j h => (q1 i j).1 h.2
    int1 := fun i j h => (q2 i j).1 h.2
    cr1 := fun i j h => (q3 i j).1 h.2 }, q4⟩
  rw [blockAdds_order _ a6, identityLoop_order _ _ a5, blockAdds_order _ a4]
  exact hp.order

omit hd hm hK in
theorem d2fdx2_pat (e2 : Obj.d2fdx2 ocp m x0 (Obj.init nx nu nq ncr nce (nColloc m)) = some r2) {s s' : Obj ℝ} (hp : PInv r1 r2 r3 s) {x : Vec ℝ}
    (e : Obj.d2fdx2 ocp m x s = some s') : PInv r1 r2 r3 s' ∧ ∀ i j, pat s'.d2f i j ↔ pat r2.d2f i j := by
  obtain ⟨A, a1, rfl⟩ := d2fdx2_parts e
  obtain ⟨B, b1, rfl⟩ := d2fdx2_parts e2
  have t0 : Rel (pat s.d2f) s.d2f (Obj.init (F := ℝ) nx nu nq ncr nce (nColloc m)).d2f := fun i j =>
    ⟨fun h => .inr h, fun h => h.resolve_left (empty_pat _ _ _ _)⟩
  have t1 := blockAdds_rel (endHessBlocks_same nx nu nq (nColloc m) 0 1 1 (hf.theta.hess _ _)) (setZero_rel t0) a1 b1
  have q4 : ∀ i j, pat A i j ↔ pat B i j := fun i j => (t1 i j).trans ⟨fun h => h.elim id (hp.d2f i j), .inl⟩
  exact ⟨{ hp with d2f := fun i j h => (q4 i j).1 h }, q4⟩

include hq hx0 hl0 in
theorem d2gdx2_pat (e3 : Obj.d2gdx2 env ocp m x0 l0 (Obj.init nx nu nq ncr nce (nColloc m)) = some r3) {s s' : Obj ℝ}
    (hs : Inv nx nu nq ncr nce (nColloc m) s) (hp : PInv r1 r2 r3 s) {x l : Vec ℝ} (hx : x.size = nVars (nColloc m) nx nu nq)
    (e : Obj.d2gdx2 env ocp m x l s = some s') : PInv r1 r2 r3 s' ∧ ∀ i j, pat s'.d2g i j ↔ pat r3.d2g i j := by
  have hi := init_inv (nx := nx) (nu := nu) (nq := nq) (ncr := ncr) (nce := nce) (nColloc m)
  obtain ⟨dyn, int, cr, A, a1, a2, a3, a4, rfl⟩ := d2gdx2_parts e
  obtain ⟨dyn', int', cr', B, b1, b2, b3, b4, rfl⟩ := d2gdx2_parts e3
  obtain ⟨o1, o2, o3, f1, f2, f3, H1, H2, H3⟩ := mesh_calls 2 env m hm hK ocp (fun _ => ⟨hd.f, hd.g, hd.cr⟩) (fun _ => hq) (IsVec.of_size hx)
    (b1 := { s.dyn2 with lambda := Vec.seg l (dB nx nq ncr nce (nColloc m)) (dL nx (nColloc m)) })
    (b2 := { s.int2 with lambda := Vec.seg l (qcB nx nq ncr nce (nColloc m)) (qL nq) })
    (b3 := { s.cr2 with lambda := Vec.seg l (crB nx nq ncr nce (nColloc m)) (crL ncr (nColloc m)) })
    ⟨hs.dyn2.size, hs.dyn2.dF_shape, hs.dyn2.d2F_shape, fun _ => rfl⟩
    ⟨hs.int2.size, hs.int2.dF_shape, hs.int2.d2F_shape, fun _ => rfl⟩
    ⟨hs.cr2.size, hs.cr2.dF_shape, hs.cr2.d2F_shape, fun _ => rfl⟩
  obtain ⟨p1, p2, p3, g1, g2, g3, G1, G2, G3⟩ := mesh_calls 2 env m hm hK ocp (fun _ => ⟨hd.f, hd.g, hd.cr⟩) (fun _ => hq) (IsVec.of_size hx0)
    (b1 := { (Obj.init nx nu nq ncr nce (nColloc m) : Obj ℝ).dyn2 with lambda := Vec.seg l0 (dB nx nq ncr nce (nColloc m)) (dL nx (nColloc m)) })
    (b2 := { (Obj.init nx nu nq ncr nce (nColloc m) : Obj ℝ).int2 with lambda := Vec.seg l0 (qcB nx nq ncr nce (nColloc m)) (qL nq) })
    (b3 := { (Obj.init nx nu nq ncr nce (nColloc m) : Obj ℝ).cr2 with lambda := Vec.seg l0 (crB nx nq ncr nce (nColloc m)) (crL ncr (nColloc m)) })
    ⟨hi.dyn2.size, hi.dyn2.dF_shape, hi.dyn2.d2F_shape, fun _ => rfl⟩
    ⟨hi.int2.size, hi.int2.dF_shape, hi.int2.d2F_shape, fun _ => rfl⟩
    ⟨hi.cr2.size, hi.cr2.dF_shape, hi.cr2.d2F_shape, fun _ => rfl⟩
  obtain rfl : o1 = dyn := Option.some.inj (f1.symm.trans a1)
  obtain rfl : o2 = int := Option.some.inj (f2.symm.trans a2)
  obtain rfl : o3 = cr := Option.some.inj (f3.symm.trans a3)
  obtain rfl : p1 = dyn' := Option.some.inj (g1.symm.trans b1)
  obtain rfl : p2 = int' := Option.some.inj (g2.symm.trans b2)
  obtain rfl : p3 = cr' := Option.some.inj (g3.symm.trans b3)
  have lx : (colsX nx nu nq (nColloc m) x).length = (colsX nx nu nq (nColloc m) x0).length := by
    rw [colsX, colsX, cols, cols, List.length_map, List.length_map]
  have lu : (colsU nx nu nq (nColloc m) x).length = (colsU nx nu nq (nColloc m) x0).length := by
    rw [colsU, colsU, cols, cols, List.length_map, List.length_map]
  have q1 : ∀ i j, pat o1.d2F i j ↔ pat p1.d2F i j := fun i j =>
    ((meshDyn_rel hf.f lx lu rfl a1 b1).hess le_rfl i j).trans ⟨fun h => h.elim id (hp.dyn2 i j), .inl⟩
  have q2 : ∀ i j, pat o2.d2F i j ↔ pat p2.d2F i j := fun i j =>
    ((meshIntegrate_rel hf.g lx lu rfl a2 b2).hess le_rfl i j).trans ⟨fun h => h.elim id (hp.int2 i j), .inl⟩
  have q3 : ∀ i j, pat o3.d2F i j ↔ pat p3.d2F i j := fun i j =>
    ((meshEval_rel hf.cr lx lu rfl a3 b3).hess le_rfl i j).trans ⟨fun h => h.elim id (hp.cr2 i j), .inl⟩
  have s1 : SameP o1.d2F p1.d2F := ⟨(H1.d2F_shape le_rfl).1.trans (G1.d2F_shape le_rfl).1.symm, (H1.d2F_shape le_rfl).2.trans (G1.d2F_shape le_rfl).2.symm, q1⟩
  have s2 : SameP o2.d2F p2.d2F := ⟨(H2.d2F_shape le_rfl).1.trans (G2.d2F_shape le_rfl).1.symm, (H2.d2F_shape le_rfl).2.trans (G2.d2F_shape le_rfl).2.symm, q2⟩
  have s3 : SameP o3.d2F p3.d2F := ⟨(H3.d2F_shape le_rfl).1.trans (G3.d2F_shape le_rfl).1.symm, (H3.d2F_shape le_rfl).2.trans (G3.d2F_shape le_rfl).2.symm, q3⟩
  have t0 : Rel (pat s.d2g) s.d2g (Obj.init (F := ℝ) nx nu nq ncr nce (nColloc m)).d2g := fun i j =>
    ⟨fun h => .inr h, fun h => h.resolve_left (empty_pat _ _ _ _)⟩
  have t1 := blockAdds_rel (List.rel_append (meshHessBlocks_same nx nu nq (nColloc m) _ s1 s2 s3)
    (forall₂_flatMap_range fun j => endHessBlocks_same nx nu nq (nColloc m) j _ _ (hf.ce.hess _ _))) (setZero_rel t0) a4 b4
  have q4 : ∀ i j, pat A i j ↔ pat B i j := fun i j => (t1 i j).trans ⟨fun h => h.elim id (hp.d2g i j), .inl⟩
  exact ⟨{ hp with
    d2g := fun i j h => (q4 i j).1 h
    dyn2 := fun i j h => (q1 i j).1 h.2
    int2 := fun i j h => (q2 i j).1 h.2
    cr2 := fun i j h => (q3 i j).1 h.2 }, q4⟩

end

/-- Blocks that are written to the upper triangle only. -/
theorem blockAdds_upper (l : List (Blk ℝ)) (hl : ∀ b ∈ l, b.upperOnly = true) {A B : Sp ℝ} (hA : ∀ i j, pat A i j → i ≤ j)
    (h : blockAdds l A = some B) (i j : ℕ) (hp : pat B i j) : i ≤ j := by
  rcases (blockAdds_pat l h i j).1 hp with h1 | ⟨b, hb, r, c, -, -, -, -, -, h2⟩
  · exact hA i j h1
  · exact h2.resolve_left (by rw [hl b hb]; simp)

theorem d2fdx2_upper {x : Vec ℝ} {r : Obj ℝ} (h : Obj.d2fdx2 ocp m x (Obj.init nx nu nq ncr nce (nColloc m)) = some r) (i j : ℕ)
    (hp : pat r.d2f i j) : i ≤ j := by
  obtain ⟨A, a1, rfl⟩ := d2fdx2_parts h
  refine blockAdds_upper _ ?_ ?_ a1 i j hp
  · intro b hb
    simp only [endHessBlocks, List.mem_cons, List.not_mem_nil, or_false] at hb
    rcases hb with rfl | rfl | rfl | rfl | rfl | rfl | rfl | rfl | rfl | rfl <;> rfl
  · intro i j h
    rw [setZero_pat] at h
    exact absurd h (empty_pat _ _ _ _)

theorem d2gdx2_upper {x l : Vec ℝ} {r : Obj ℝ} (h : Obj.d2gdx2 env ocp m x l (Obj.init nx nu nq ncr nce (nColloc m)) = some r) (i j : ℕ)
    (hp : pat r.d2g i j) : i ≤ j := by
  obtain ⟨dyn, int, cr, A, a1, a2, a3, a4, rfl⟩ := d2gdx2_parts h
  refine blockAdds_upper _ ?_ ?_ a4 i j hp
  · intro b hb
    rcases List.mem_append.1 hb with hb | hb
    · simp only [meshHessBlocks, List.mem_append, List.mem_map] at hb
      rcases hb with ((((⟨_, _, rfl⟩ | ⟨_, _, rfl⟩) | ⟨_, _, rfl⟩) | ⟨_, _, rfl⟩) | ⟨_, _, rfl⟩) | ⟨_, _, rfl⟩ <;> rfl
    · obtain ⟨k, -, hb⟩ := List.mem_flatMap.1 hb
      simp only [endHessBlocks, List.mem_cons, List.not_mem_nil, or_false] at hb
      rcases hb with rfl | rfl | rfl | rfl | rfl | rfl | rfl | rfl | rfl | rfl <;> rfl
  · intro i j h
    rw [setZero_pat] at h
    exact absurd h (empty_pat _ _ _ _)

end Verif.Pattern
