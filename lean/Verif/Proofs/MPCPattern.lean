import Verif.Proofs.PatternQP
import Verif.Proofs.MPCWorld
import Verif.Spec.MPCSolver

/-! # The sparsity of the controller's program does not change -/

set_option linter.unusedSectionVars false

namespace Verif.MPC

open Verif.Mesh Verif.Sparse Verif.MeshFn Verif.NLP Verif.OQP Verif.Lie Verif.Flatten Verif.Pattern

variable {T σ X U : Type*} {nx nu ncr : ℕ}

theorem dynFn_same (plus : T → ℝ → T) (f : UFn T ℝ X U nx nu nx) (t0 : T) (t : ℝ) (x : X) (u : U) :
    SameP ((dynFn plus f t0).jac t x u) (dense nx (1 + nx + nu) fun _ _ => 0) := SameP.dense _ _ _ _

/-- The positions of the running constraints. -/
def crShape (nx nu ncr : ℕ) : Sp ℝ := ⟨ncr, 1 + nx + nu, false, fun r c => if r < ncr ∧ 1 ≤ c ∧ c < 1 + nx + nu then some 0 else none⟩

theorem crFn_same (plus : T → ℝ → T) (f : UFn T ℝ X U nx nu ncr) (t0 : T) (t : ℝ) (x : X) (u : U) :
    SameP ((crFn plus f t0).jac t x u) (crShape nx nu ncr) := by
  refine ⟨rfl, rfl, fun i j => ?_⟩
  unfold pat crFn crShape
  dsimp only
  by_cases h : i < ncr ∧ 1 ≤ j ∧ j < 1 + nx + nu
  · rw [if_pos h, if_pos h]; exact ⟨fun _ => rfl, fun _ => rfl⟩
  · rw [if_neg h, if_neg h]

/-- The positions of the end constraints. -/
def ceShape (sys : Sys T ℝ σ X U nx nu) : Sp ℝ := (ceFn sys sys.dfltX).jac 0 sys.dfltX sys.dfltX fun _ => 0

theorem ceFn_same (sys : Sys T ℝ σ X U nx nu) (x0f : X) (t : ℝ) (x y : X) (q : Fin 1 → ℝ) : SameP ((ceFn sys x0f).jac t x y q) (ceShape sys) := by
  refine ⟨rfl, rfl, fun i j => ?_⟩
  unfold pat ceShape ceFn
  dsimp only
  by_cases h : i < nx ∧ 1 ≤ j ∧ j - 1 < nx
  · rw [dif_pos h, dif_pos h]
    by_cases hp : sys.pat ⟨i, h.1⟩ ⟨j - 1, h.2.2⟩ = true
    · rw [if_pos hp, if_pos hp]; exact ⟨fun _ => rfl, fun _ => rfl⟩
    · rw [if_neg hp, if_neg hp]
  · rw [dif_neg h, dif_neg h]

theorem localAd_same (LX : LieOps X ℝ nx) (comm : Bool) : SameAd (localAd LX comm) := by
  intro a ha v w
  unfold localAd at ha
  cases comm with
  | true => simp at ha
  | false =>
    simp only [Bool.false_eq_true, if_false, Option.mem_def, Option.some.injEq] at ha
    subst ha
    refine ⟨rfl, rfl, fun i j => ?_⟩
    exact (SameP.dense _ _ _ _).pat i j

/-- Everything that an update writes is stored: there are earlier runs of the updates whose results are part of the program. -/
structure Sat (sys : Sys T ℝ σ X U nx nu) (o : Obj T ℝ σ X U nx nu ncr) : Prop where
  order : o.qp.A.rowMajor = true
  dyn : ∃ (ocp : OCP ℝ nx nu 1 ncr nx) (tf : ℝ) (lin : Lin ℝ nx nu) (s r : QPD ℝ × Work ℝ),
    updateDyn sys.env o.mesh ocp (localAd sys.LX sys.comm) tf lin s = some r ∧ (∀ p, SameP (ocp.f.jac p) (dense nx (1 + nx + nu) fun _ _ => 0)) ∧
    Sub r.1.A o.qp.A
  cr : ∃ (ocp : OCP ℝ nx nu 1 ncr nx) (tf : ℝ) (lin : Lin ℝ nx nu) (s r : QPD ℝ × Work ℝ),
    updateCr sys.env o.mesh ocp tf lin s = some r ∧ (∀ p, SameP (ocp.cr.jac p) (crShape nx nu ncr)) ∧
    SameBuf o.work.cr s.2.cr ∧ SameBuf r.2.cr s.2.cr ∧ Sub r.1.A o.qp.A
  ce : ∃ (ocp : OCP ℝ nx nu 1 ncr nx) (tf : ℝ) (lin : Lin ℝ nx nu) (s r : QPD ℝ × Work ℝ),
    updateCe o.mesh ocp tf lin s = some r ∧ SameP (ocp.ce.jac (endLin lin tf)) (ceShape sys) ∧ Sub r.1.A o.qp.A

theorem SameP.of_shape {A B S : Sp ℝ} (h : SameP A S) (h' : SameP B S) : SameP A B := h.trans h'.symm

/-! ### One update -/

theorem dyn_sub {env : Mesh.Env ℝ} {m : Mesh ℝ} {ocp : OCP ℝ nx nu 1 ncr nx} {LX : LieOps X ℝ nx} {comm : Bool} {tf : ℝ} {lin : Lin ℝ nx nu} {s r : QPD ℝ × Work ℝ}
    (hf : ∀ p, SameP (ocp.f.jac p) (dense nx (1 + nx + nu) fun _ _ => 0))
    (h : updateDyn env m ocp (localAd LX comm) tf lin s = some r) : Sub s.1.A r.1.A :=
  sub_of_self fun _ hO => updateDyn_rel (fun p q => SameP.of_shape (hf p) (hf q)) (localAd_same _ _) hO h h

theorem cr_sub {env : Mesh.Env ℝ} {m : Mesh ℝ} {ocp : OCP ℝ nx nu 1 ncr nx} {tf : ℝ} {lin : Lin ℝ nx nu} {s r : QPD ℝ × Work ℝ}
    (hu : r.2.cr.allocated = true) (h : updateCr env m ocp tf lin s = some r) : Sub s.1.A r.1.A :=
  sub_of_self fun _ hO => updateCr_rel hO ⟨hu, hu, SameP.refl _⟩ h h

theorem ce_sub {m : Mesh ℝ} {ocp : OCP ℝ nx nu 1 ncr nx} {tf : ℝ} {lin : Lin ℝ nx nu} {s r : QPD ℝ × Work ℝ}
    (h : updateCe m ocp tf lin s = some r) : Sub s.1.A r.1.A :=
  sub_of_self fun _ hO => updateCe_rel (SameP.refl _) hO h h

theorem dynIvals_P {env : Mesh.Env ℝ} {m : Mesh ℝ} {ocp : OCP ℝ nx nu 1 ncr nx} {ad : Option ((Fin nx → ℝ) → Sp ℝ)} {tf : ℝ} {lin : Lin ℝ nx nu} (l : List ℕ) (M : ℕ)
    {q p : QPD ℝ} (e : dynIvals env m ocp ad tf lin l M q = some p) : p.P = q.P := by
  induction l generalizing M q with
  | nil =>
    obtain rfl := Option.some.inj e
    rfl
  | cons iv l ih =>
    simp only [dynIvals] at e
    split at e
    · exact absurd e (by simp)
    · split at e
      · exact absurd e (by simp)
      · rename_i q1 e1
        refine (ih _ e).trans (iter_keep (k := fun q : QPD ℝ => q.P) ?_ _ e1)
        intro a o p x
        unfold dynRow at x
        dsimp only at x
        repeat' split at x
        all_goals first | (cases x; done) | (obtain rfl := Option.some.inj x; rfl)

theorem updateDyn_P {env : Mesh.Env ℝ} {m : Mesh ℝ} {ocp : OCP ℝ nx nu 1 ncr nx} {ad : Option ((Fin nx → ℝ) → Sp ℝ)} {tf : ℝ} {lin : Lin ℝ nx nu} {s r : QPD ℝ × Work ℝ}
    (h : updateDyn env m ocp ad tf lin s = some r) : r.1.P = s.1.P ∧ r.2 = s.2 := by
  unfold updateDyn at h
  repeat' split at h
  all_goals first | (cases h; done) | skip
  rename_i q hq
  obtain rfl := Option.some.inj h
  exact ⟨(dynIvals_P _ _ hq).trans rfl, rfl⟩

theorem updateCr_P {env : Mesh.Env ℝ} {m : Mesh ℝ} {ocp : OCP ℝ nx nu 1 ncr nx} {tf : ℝ} {lin : Lin ℝ nx nu} {s r : QPD ℝ × Work ℝ}
    (h : updateCr env m ocp tf lin s = some r) : r.1.P = s.1.P := by
  unfold updateCr at h
  dsimp only at h
  repeat' split at h
  all_goals first | (cases h; done) | (obtain rfl := Option.some.inj h; rfl)

theorem updateCe_P {m : Mesh ℝ} {ocp : OCP ℝ nx nu 1 ncr nx} {tf : ℝ} {lin : Lin ℝ nx nu} {s r : QPD ℝ × Work ℝ}
    (h : updateCe m ocp tf lin s = some r) : r.1.P = s.1.P ∧ r.2 = s.2 := by
  unfold updateCe at h
  dsimp only at h
  repeat' split at h
  all_goals first | (cases h; done) | (obtain rfl := Option.some.inj h; exact ⟨rfl, rfl⟩)

/-! ### One call -/

theorem transcribe_sparsity (sys : Sys T ℝ σ X U nx nu) (o o' : Obj T ℝ σ X U nx nu ncr) (ho : o.Ok sys) (hs : Sat sys o) (xc : XCell T ℝ X nx) (uc : UCell T U)
    (t : T) (x : X) (hxc : xc.t0 = t) (huc : uc.t0 = t) (h : o.transcribe sys xc uc t x = some o') : SameSparsity o'.qp o.qp ∧ Sat sys o' := by
  have hdims : o'.qp.A.rows = o.qp.A.rows ∧ o'.qp.A.cols = o.qp.A.cols := by
    obtain ⟨o2, e, he, hok, -⟩ := transcribe_spec sys o ho xc.xdes xc.dxdes uc.udes t x
    subst hxc
    obtain ⟨u0, ud⟩ := uc
    dsimp only at huc
    subst huc
    have := Option.some.inj (e.symm.trans h)
    subst this
    have hm : o2.mesh = o.mesh := by rw [he]
    have h1 := hok.inv.con.A
    have h2 := ho.inv.con.A
    rw [hm] at h1
    exact ⟨h1.1.trans h2.1.symm, h1.2.trans h2.2.symm⟩
  unfold Obj.transcribe at h
  simp only at h
  set lin := linOf sys.plus xc uc with hlin
  set o1 : Obj T ℝ σ X U nx nu ncr := { o with xfDes := lin.x o.args.tf, ft0 := t, crt0 := t, x0fix := x } with ho1
  obtain ⟨s1, e1, h⟩ := Option.bind_eq_some_iff.mp h
  obtain ⟨s2, e2, h⟩ := Option.bind_eq_some_iff.mp h
  obtain ⟨s3, e3, rfl⟩ := Option.map_eq_some_iff.mp h
  rw [updateDynG_local] at e1
  rw [updateCrG_local] at e2
  rw [updateCeG_local (nu := nu)] at e3
  obtain ⟨docp, dtf, dlin, ds, dr, d1, d2, d3⟩ := hs.dyn
  obtain ⟨cocp, ctf, clin, cs, cr, c1, c2, c3, c4, c5⟩ := hs.cr
  obtain ⟨eocp, etf, elin, es, er, k1, k2, k3⟩ := hs.ce
  have p1 : ∀ i j, pat s1.1.A i j ↔ pat o.qp.A i j :=
    nothing_new (fun O hO => updateDyn_rel (fun p q => SameP.of_shape (dynFn_same _ _ _ _ _ _) (d2 q)) (localAd_same _ _) hO e1 d1) (dyn_sub d2 d1) d3
  obtain ⟨P1, w1⟩ := updateDyn_P e1
  have c0 := updateDyn_order e1
  have h2 : (∀ i j, pat s2.1.A i j ↔ pat s1.1.A i j) ∧ s2.1.P = s1.1.P ∧ s2.1.A.rowMajor = s1.1.A.rowMajor ∧ SameBuf s2.2.cr cs.2.cr := by
    have hb1 : SameBuf s1.2.cr cs.2.cr := by rw [w1]; exact c3
    cases ht : o.args.cr.timed with
    | false =>
      rw [show o1.args.cr.timed = false from ht, if_neg (by simp)] at e2
      obtain rfl := Option.some.inj e2
      exact ⟨fun _ _ => Iff.rfl, rfl, rfl, hb1⟩
    | true =>
      rw [show o1.args.cr.timed = true from ht, if_pos rfl] at e2
      have hb2 : SameBuf s2.2.cr cr.2.cr := meshEval_same (fun p q => SameP.of_shape (crFn_same _ _ _ _ _ _) (c2 q)) (atNodes_length _ _ _ _) (atNodes_length _ _ _ _) hb1
        (updateCr_mat e2).1 (updateCr_mat c1).1
      exact ⟨nothing_new (fun O hO => updateCr_rel hO hb2 e2 c1) (cr_sub hb2.used' c1) (fun i j h => (p1 i j).2 (c5 i j h)), updateCr_P e2, updateCr_order e2, hb2.trans c4⟩
  obtain ⟨p2, P2, or2, b2⟩ := h2
  have p3 : ∀ i j, pat s3.1.A i j ↔ pat s2.1.A i j :=
    nothing_new (fun O hO => updateCe_rel (SameP.of_shape (ceFn_same sys x o.args.tf (lin.x 0) (lin.x o.args.tf) fun _ => 1) k2) hO e3 k1) (ce_sub k1) (fun i j h => (p2 i j).2 ((p1 i j).2 (k3 i j h)))
  obtain ⟨P3, w3⟩ := updateCe_P e3
  have hP : s3.1.P = o.qp.P := P3.trans (P2.trans P1)
  have hpat : ∀ i j, pat s3.1.A i j ↔ pat o.qp.A i j := fun i j => (p3 i j).trans ((p2 i j).trans (p1 i j))
  have hord : s3.1.A.rowMajor = o.qp.A.rowMajor := (updateCe_order e3).trans (or2.trans c0)
  have hsub : Sub o.qp.A s3.1.A := fun i j h => (hpat i j).2 h
  refine ⟨⟨?_, ⟨hdims.1, hdims.2, hpat⟩, ?_, hord⟩, ⟨hord.trans hs.order, ⟨docp, dtf, dlin, ds, dr, d1, d2, d3.trans hsub⟩, ⟨cocp, ctf, clin, cs, cr, c1, c2, ?_, c4, c5.trans hsub⟩,
    ⟨eocp, etf, elin, es, er, k1, k2, k3.trans hsub⟩⟩⟩
  · change SameP s3.1.P o.qp.P
    rw [hP]
    exact SameP.refl _
  · change s3.1.P.rowMajor = o.qp.P.rowMajor
    rw [hP]
  · change SameBuf s3.2.cr cs.2.cr
    rw [w3]
    exact b2

/-! ### The constructor -/

theorem new_sat (sys : Sys T ℝ σ X U nx nu) (a : Args T ℝ X U nx nu ncr) (xp up : ℕ) (o : Obj T ℝ σ X U nx nu ncr) (h : Obj.new sys a xp up = some o) : Sat sys o := by
  unfold Obj.new at h
  split_ifs at h with hK
  obtain ⟨mesh, hm, h⟩ := Option.bind_eq_some_iff.mp h
  obtain ⟨thetaH, hth, h⟩ := Option.bind_eq_some_iff.mp h
  obtain ⟨gH, hg, h⟩ := Option.bind_eq_some_iff.mp h
  simp only at h
  set o0 : Obj T ℝ σ X U nx nu ncr :=
      { xp := xp, up := up, mesh := mesh, args := a, xfDes := sys.dfltX, Qtf := eye nx, thetaH := thetaH, Q := eye nx, R := eye nu,
        gH := gH, ft0 := sys.t00, crt0 := sys.t00, x0fix := sys.dfltX, work := ⟨freshMV, freshMV⟩,
        qp := ⟨Sp.empty 0 0, ⟨0, fun _ => 0⟩, Sp.empty 0 0 true, ⟨0, fun _ => .fin 0⟩, ⟨0, fun _ => .fin 0⟩⟩,
        solver := sys.solver.init, warm := none } with ho0
  obtain ⟨s, es, h⟩ := Option.bind_eq_some_iff.mp h
  obtain ⟨s4, eu, h⟩ := Option.bind_eq_some_iff.mp h
  obtain ⟨st, -, rfl⟩ := Option.map_eq_some_iff.mp h
  rw [allocateG_local sys.dfltX sys.dfltU sys.env mesh (o0.ocp sys) a.tf] at es
  rw [updateG_local] at eu
  unfold update at eu
  obtain ⟨s1, e1, eu⟩ := Option.bind_eq_some_iff.mp eu
  obtain ⟨s2, e2, eu⟩ := Option.bind_eq_some_iff.mp eu
  obtain ⟨s3, e3, e4⟩ := Option.bind_eq_some_iff.mp eu
  have hs : s.1.A.rowMajor = true ∧ ∃ xs us, xs.length = (allNodes sys.env mesh).length ∧ us.length = (allNodes sys.env mesh).length ∧
      meshEval 1 sys.env mesh (localOCP nu (o0.ocp sys) (fun _ => sys.dfltX) (fun _ => sys.dfltU) a.tf).cr 0 1 xs us false freshMV = some s.2.cr := by
    unfold allocate at es
    dsimp only at es
    split at es
    · exact absurd es (by simp)
    · rename_i cr ec
      split at es
      · exact absurd es (by simp)
      · obtain rfl := Option.some.inj es
        exact ⟨rfl, _, _, by simp [atNodes], by simp [atNodes], ec⟩
  obtain ⟨hord, xs, us, hx, hu, ea⟩ := hs
  have h1 : s1.1.A = s.1.A ∧ s1.2.cr = s.2.cr := by
    unfold updateCost at e1
    dsimp only at e1
    repeat' split at e1
    all_goals first | (cases e1; done) | (obtain rfl := Option.some.inj e1; exact ⟨rfl, rfl⟩)
  obtain ⟨-, w2⟩ := updateDyn_P e2
  obtain ⟨-, w4⟩ := updateCe_P e4
  have hb : SameBuf s3.2.cr s2.2.cr := by
    have := (updateCr_mat e3).1
    rw [w2, h1.2] at this ⊢
    exact meshEval_again (fun p q => SameP.of_shape (crFn_same _ _ _ _ _ _) (crFn_same _ _ _ _ _ _)) (by simp [hx, atNodes]) (by simp [hu, atNodes]) rfl ea this
  have hdf : ∀ p, SameP ((localOCP nu (o0.ocp sys) (linOf sys.plus (newX sys) (newU sys)).x (linOf sys.plus (newX sys) (newU sys)).u a.tf).f.jac p)
      (dense nx (1 + nx + nu) fun _ _ => 0) := fun p => dynFn_same _ _ _ _ _ _
  have k3 := cr_sub hb.used e3
  have k4 := ce_sub e4
  refine ⟨?_, ⟨_, _, _, _, _, e2, hdf, k3.trans k4⟩, ⟨_, _, _, _, _, e3, fun p => crFn_same _ _ _ _ _ _, ?_, hb, k4⟩, ⟨_, _, _, _, _, e4, ceFn_same sys sys.dfltX a.tf sys.dfltX sys.dfltX fun _ => 1, Sub.refl _⟩⟩
  · change s4.1.A.rowMajor = true
    rw [updateCe_order e4, updateCr_order e3, updateDyn_order e2, h1.1, hord]
  · change SameBuf s4.2.cr s2.2.cr
    rw [w4]
    exact hb

end Verif.MPC
