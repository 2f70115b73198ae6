import Verif.Proofs.MPCHess
import Verif.Props.MeshNodes
import Verif.Props.OCPQP
import Verif.Proofs.OCPQPLie

/-! # The program of the controller over its life time -/

set_option linter.unusedSectionVars false

namespace Verif.MPC

open Verif.Mesh Verif.Sparse Verif.MeshFn Verif.NLP Verif.OQP Verif.QPSpec Verif.Lie Verif.Flatten
open Verif.QP (Ext Status)

variable {T σ X U : Type*} {nx nu ncr n N : ℕ}

/-! ### Jacobians of the functors -/

/-- The coefficients of the deviations in one row of a functor. -/
def ufRow (f : UFn T ℝ X U nx nu n) (t : Option T) (x : X) (u : U) (k : Fin n) : Arg nx nu → ℝ
  | .t => 0
  | .x l => f.dx t x u k l
  | .u l => f.du t x u k l

theorem ext_fin {m : ℕ} (g : Fin m → ℝ) (k : Fin m) : ext g (k : ℕ) = g k := by
  unfold ext
  rw [dif_pos k.2]

theorem dfAt_row (f : UFn T ℝ X U nx nu n) (t : Option T) (x : X) (u : U) (k : Fin n) (a : Arg nx nu) (ha : 1 ≤ a.pos) :
    dfAt f t x u k (a.pos - 1) = ufRow f t x u k a := by
  unfold dfAt
  cases a with
  | t => simp [Arg.pos] at ha
  | x l =>
    rw [show (Arg.x l : Arg nx nu).pos - 1 = l by simp only [Arg.pos]; omega, if_pos l.2, ext_fin, ext_fin]
    rfl
  | u l =>
    rw [show (Arg.u l : Arg nx nu).pos - 1 = nx + l by simp only [Arg.pos]; omega, if_neg (by omega), Nat.add_sub_cancel_left, ext_fin, ext_fin]
    rfl

theorem argPos_lt (a : Arg nx nu) : a.pos < 1 + nx + nu := by
  cases a <;> simp only [Arg.pos] <;> omega

theorem dynFn_jac (plus : T → ℝ → T) (f : UFn T ℝ X U nx nu nx) (t0 : T) (t : ℝ) (x : X) (u : U) (k : Fin nx) (a : Arg nx nu) :
    ((dynFn plus f t0).jac t x u).val k a.pos = ufRow f (timeOf plus f t0 t) x u k a := by
  simp only [dynFn, dense, Sp.val]
  rw [if_pos ⟨k.2, argPos_lt a⟩, Option.getD_some]
  by_cases h : 1 ≤ a.pos
  · rw [if_neg (by omega), dfAt_row _ _ _ _ _ _ h]
  · rw [if_pos (by omega)]
    cases a with
    | t => rfl
    | x l => simp [Arg.pos] at h
    | u l => simp only [Arg.pos] at h; omega

theorem crFn_jac (plus : T → ℝ → T) (f : UFn T ℝ X U nx nu ncr) (t0 : T) (t : ℝ) (x : X) (u : U) (k : Fin ncr) (a : Arg nx nu) :
    ((crFn plus f t0).jac t x u).val k a.pos = ufRow f (timeOf plus f t0 t) x u k a := by
  simp only [crFn, Sp.val]
  by_cases h : 1 ≤ a.pos
  · rw [if_pos ⟨k.2, h, argPos_lt a⟩, Option.getD_some, dfAt_row _ _ _ _ _ _ h]
  · rw [if_neg (by omega), Option.getD_none]
    cases a with
    | t => rfl
    | x l => simp [Arg.pos] at h
    | u l => simp only [Arg.pos] at h; omega

/-- `crFn` is what `block_write` gives, on any buffer that stores nothing outside. -/
theorem crFn_write (plus : T → ℝ → T) (f : UFn T ℝ X U nx nu ncr) (t0 : T) (t : ℝ) (x : X) (u : U) (buf : Sp ℝ)
    (hb : buf.rows = ncr ∧ buf.cols = 1 + nx + nu) (h0 : ∀ r c, ¬(r < ncr ∧ 1 ≤ c ∧ c < 1 + nx + nu) → buf.ent r c = none) :
    ∃ J, blockWrite buf 0 1 (dense ncr (nx + nu) (dfAt f (timeOf plus f t0 t) x u)) = some J ∧ J.rows = ncr ∧ J.cols = 1 + nx + nu ∧
      J.ent = ((crFn plus f t0).jac t x u).ent := by
  obtain ⟨J, e, ⟨h1, h2, -⟩, h3⟩ := blockOp_spec (fun _ b => b) buf 0 1 (dense ncr (nx + nu) (dfAt f (timeOf plus f t0 t) x u)) (1 : ℝ) false
    (by rw [hb.1]; simp [dense]) (by rw [hb.2]; simp only [dense]; omega)
  refine ⟨J, e, h1.trans hb.1, h2.trans hb.2, ?_⟩
  funext r c
  rw [h3]
  simp only [InBlock, dense, crFn, zero_add, one_mul, Nat.sub_zero, Bool.false_eq_true, false_imp_iff, and_true]
  by_cases h : r < ncr ∧ 1 ≤ c ∧ c < 1 + nx + nu
  · rw [if_pos (by omega), if_pos (by omega), if_pos h]
  · rw [if_neg (by omega), if_neg h, h0 r c h]

/-- What the pattern keeps of `dr_expinv`. -/
def patInv (sys : Sys T ℝ σ X U nx nu) (a : Fin nx → ℝ) (k l : Fin nx) : ℝ := if sys.pat k l then sys.LX.drExpinv a k l else 0

theorem ceFn_jac (sys : Sys T ℝ σ X U nx nu) (x0f : X) (t : ℝ) (x y : X) (q : Fin 1 → ℝ) (k : Fin nx) (a : EArg nx 1) :
    ((ceFn sys x0f).jac t x y q).val k a.pos = match a with
      | .x0 l => patInv sys (sys.rminus x x0f) k l
      | _ => 0 := by
  simp only [ceFn, Sp.val]
  cases a with
  | tf => rw [dif_neg (by simp only [EArg.pos]; omega)]; rfl
  | x0 l =>
    have hp : (EArg.x0 l : EArg nx 1).pos = 1 + l := rfl
    have hl : (⟨(EArg.x0 l : EArg nx 1).pos - 1, by rw [hp]; omega⟩ : Fin nx) = l := Fin.ext (by simp only [hp]; omega)
    rw [dif_pos ⟨k.2, by rw [hp]; omega, by rw [hp]; omega⟩]
    simp only [hl, Fin.eta, patInv]
    cases sys.pat k l <;> rfl
  | xf l => rw [dif_neg (by simp only [EArg.pos]; omega)]; rfl
  | q l => rw [dif_neg (by simp only [EArg.pos]; omega)]; rfl

/-- The pattern of the end constraints. -/
def cePat (sys : Sys T ℝ σ X U nx nu) : ℕ → ℕ → Prop := fun r c => ∃ h : r < nx ∧ 1 ≤ c ∧ c - 1 < nx, sys.pat ⟨r, h.1⟩ ⟨c - 1, h.2.2⟩ = true

theorem ceFn_pat (sys : Sys T ℝ σ X U nx nu) (x0f : X) (t : ℝ) (x y : X) (q : Fin 1 → ℝ) (k : Fin nx) (c : ℕ) :
    cePat sys k c ↔ ((ceFn sys x0f).jac t x y q).ent k c ≠ none := by
  simp only [ceFn, cePat]
  by_cases h : (k : ℕ) < nx ∧ 1 ≤ c ∧ c - 1 < nx
  · rw [dif_pos h]
    constructor
    · rintro ⟨h', e⟩
      rw [if_pos e]; simp
    · intro e
      refine ⟨h, ?_⟩
      by_contra h2
      rw [if_neg h2] at e
      exact e rfl
  · rw [dif_neg h]
    exact ⟨fun ⟨h', _⟩ => absurd h' h, fun e => absurd rfl e⟩

/-! ### The invariant -/

/-- The weight of a variable. -/
noncomputable def unitWt (env : Mesh.Env ℝ) (m : Mesh ℝ) (tf : ℝ) : QVar (nColloc m) nx nu → ℝ
  | .x i _ => (if (i : ℕ) < nColloc m then tf * wAt env m i else 0) + if (i : ℕ) = 0 then 1 / 2 else 0
  | .u i _ => tf * wAt env m i

/-- Row `k` of the running constraints at point `i`, with the functor at `(t, x, u)`. -/
structure CrRow (a : Args T ℝ X U nx nu ncr) (N : ℕ) (qp : QPD ℝ) (i : Fin N) (k : Fin ncr) (t : Option T) (x : X) (u : U) :
    Prop where
  A : ∀ v : QVar N nx nu, qp.A.val (nx * N + (ncr * i + k)) v.pos = pullN i (ufRow a.cr t x u k) v
  l : qp.l.val (nx * N + (ncr * i + k)) = extSub (a.crl k) (a.cr.val t x u k)
  u : qp.u.val (nx * N + (ncr * i + k)) = extSub (a.cru k) (a.cr.val t x u k)

/-- What holds of an object between calls. -/
structure Obj.Ok (sys : Sys T ℝ σ X U nx nu) (o : Obj T ℝ σ X U nx nu ncr) : Prop where
  kmesh : 1 ≤ o.args.Kmesh
  mesh : uniform o.args.Kmesh o.args.Kmesh ((o.args.K + o.args.Kmesh - 1) / o.args.Kmesh) o.args.Kmesh = some o.mesh
  inv : QInv (nColloc o.mesh) nx nu ncr nx (cePat sys) (o.qp, o.work)
  P : ∀ v w : QVar (nColloc o.mesh) nx nu, o.qp.P.val v.pos w.pos = if v = w then unitWt sys.env o.mesh o.args.tf v else 0
  q : ∀ v : QVar (nColloc o.mesh) nx nu, o.qp.q.val v.pos = 0
  cr : o.args.cr.timed = false → ∀ i k, CrRow o.args (nColloc o.mesh) o.qp i k none sys.dfltX sys.dfltU

theorem Obj.Ok.valid {sys : Sys T ℝ σ X U nx nu} {o : Obj T ℝ σ X U nx nu ncr} (h : o.Ok sys) : Valid o.args.Kmesh o.args.Kmesh o.mesh :=
  valid_uniform h.mesh

theorem Obj.Ok.ne {sys : Sys T ℝ σ X U nx nu} {o : Obj T ℝ σ X U nx nu ncr} (h : o.Ok sys) : o.mesh ≠ [] := h.valid.ne_nil

theorem Obj.Ok.pos {sys : Sys T ℝ σ X U nx nu} {o : Obj T ℝ σ X U nx nu ncr} (h : o.Ok sys) : 1 ≤ nColloc o.mesh :=
  nColloc_pos h.ne fun v hv => h.kmesh.trans (h.valid.degree v hv).1

theorem timeOf_eq (plus : T → ℝ → T) (f : UFn T ℝ X U nx nu n) (t : T) (s : ℝ) : timeOf plus f t s = seen f (plus t s) := rfl

/-- `transcribe` on an object that satisfies the invariant. -/
theorem transcribe_spec (sys : Sys T ℝ σ X U nx nu) (o : Obj T ℝ σ X U nx nu ncr) (ho : o.Ok sys) (xd : T → X) (dxd : T → Fin nx → ℝ) (ud : T → U)
    (t : T) (x : X) :
    ∃ o', o.transcribe sys ⟨t, xd, dxd⟩ ⟨t, ud⟩ t x = some o' ∧
      o' = { o with xfDes := xd (sys.plus t o.args.tf), ft0 := t, crt0 := t, x0fix := x, qp := o'.qp, work := o'.work } ∧ o'.Ok sys ∧
      (∀ (p : Fin (nColloc o.mesh)) (k : Fin nx) (v : QVar (nColloc o.mesh) nx nu), o'.qp.A.val (nx * p + k) v.pos =
        o.args.tf * pullN p (ufRow o.args.f (seen o.args.f (nodeTime sys o.mesh o.args.tf t p)) (xd (nodeTime sys o.mesh o.args.tf t p))
          (ud (nodeTime sys o.mesh o.args.tf t p)) k) v + -o.args.tf / 2 * pullN p (adRow (localAd sys.LX sys.comm)
          (o.args.f.val (seen o.args.f (nodeTime sys o.mesh o.args.tf t p)) (xd (nodeTime sys o.mesh o.args.tf t p))
          (ud (nodeTime sys o.mesh o.args.tf t p)) + dxd (nodeTime sys o.mesh o.args.tf t p)) k) v - slope sys.env (spans 1 o.mesh) (coordQ (unitQ v) k) p) ∧
      (∀ (p : Fin (nColloc o.mesh)) (k : Fin nx), o'.qp.l.val (nx * p + k) = .fin (-o.args.tf *
        (o.args.f.val (seen o.args.f (nodeTime sys o.mesh o.args.tf t p)) (xd (nodeTime sys o.mesh o.args.tf t p))
          (ud (nodeTime sys o.mesh o.args.tf t p)) k - dxd (nodeTime sys o.mesh o.args.tf t p) k))) ∧
      (∀ (p : Fin (nColloc o.mesh)) (k : Fin nx), o'.qp.u.val (nx * p + k) = .fin (-o.args.tf *
        (o.args.f.val (seen o.args.f (nodeTime sys o.mesh o.args.tf t p)) (xd (nodeTime sys o.mesh o.args.tf t p))
          (ud (nodeTime sys o.mesh o.args.tf t p)) k - dxd (nodeTime sys o.mesh o.args.tf t p) k))) ∧
      (o.args.cr.timed = true → ∀ i k, CrRow o.args (nColloc o.mesh) o'.qp i k (seen o.args.cr (nodeTime sys o.mesh o.args.tf t i))
        (xd (nodeTime sys o.mesh o.args.tf t i)) (ud (nodeTime sys o.mesh o.args.tf t i))) ∧
      (∀ (k : Fin nx) (v : QVar (nColloc o.mesh) nx nu), o'.qp.A.val (nx * nColloc o.mesh + ncr * nColloc o.mesh + k) v.pos =
        match v with
        | .x j l => if j = 0 then patInv sys (sys.rminus (xd (sys.plus t 0)) x) k l else 0
        | .u _ _ => 0) ∧
      (∀ k : Fin nx, o'.qp.l.val (nx * nColloc o.mesh + ncr * nColloc o.mesh + k) = .fin (0 - sys.rminus (xd (sys.plus t 0)) x k)) ∧
      (∀ k : Fin nx, o'.qp.u.val (nx * nColloc o.mesh + ncr * nColloc o.mesh + k) = .fin (0 - sys.rminus (xd (sys.plus t 0)) x k)) := by
  set lin := linOf sys.plus (⟨t, xd, dxd⟩ : XCell T ℝ X nx) (⟨t, ud⟩ : UCell T U) with hlin
  set lo := localOCP nu (({ o with xfDes := lin.x o.args.tf, ft0 := t, crt0 := t, x0fix := x } : Obj T ℝ σ X U nx nu ncr).ocp sys) lin.x lin.u o.args.tf
    with hlo
  set o1 : Obj T ℝ σ X U nx nu ncr := { o with xfDes := lin.x o.args.tf, ft0 := t, crt0 := t, x0fix := x } with ho1
  have hN := ho.pos
  obtain ⟨q1, e1, hP1, hq1, hC1, hd1, hdl1, hdu1, hk1, hkl1, hku1⟩ := updateDyn_spec sys.env o.mesh ho.ne lo (fun _ => rfl)
    (localAd sys.LX sys.comm) (localAd_ok _ _) o.args.tf (zeroLin nu lin.dx) (o.qp, o.work) ho.inv.con
  have hst1 : CrStored (nColloc o.mesh) nx nu ncr (q1, o.work) := ho.inv.cr.of_ent rfl fun r hr _ c => hk1 r hr c
  have hse1 : CeStored (nColloc o.mesh) nx nu ncr nx (cePat sys) q1.A := ho.inv.ce.of_ent fun r hr c => hk1 r (by omega) c
  have hdyn : ∀ (p : Fin (nColloc o.mesh)) (k : Fin nx) (v : QVar (nColloc o.mesh) nx nu), q1.A.val (nx * p + k) v.pos =
        o.args.tf * pullN p (ufRow o.args.f (seen o.args.f (nodeTime sys o.mesh o.args.tf t p)) (xd (nodeTime sys o.mesh o.args.tf t p))
          (ud (nodeTime sys o.mesh o.args.tf t p)) k) v + -o.args.tf / 2 * pullN p (adRow (localAd sys.LX sys.comm)
          (o.args.f.val (seen o.args.f (nodeTime sys o.mesh o.args.tf t p)) (xd (nodeTime sys o.mesh o.args.tf t p))
          (ud (nodeTime sys o.mesh o.args.tf t p)) + dxd (nodeTime sys o.mesh o.args.tf t p)) k) v - slope sys.env (spans 1 o.mesh) (coordQ (unitQ v) k) p := by
    intro p k v
    rw [hd1]
    unfold ptCoef
    rw [dif_pos p.2]
    congr 4
    funext a
    exact dynFn_jac sys.plus o.args.f t _ _ _ k a
  have hcrstep : ∃ q2 w2, (if o.args.cr.timed then updateCr sys.env o.mesh lo o.args.tf (zeroLin nu lin.dx) (q1, o.work) else some (q1, o.work)) =
      some (q2, w2) ∧ w2.int = o.work.int ∧ q2.P = q1.P ∧ q2.q = q1.q ∧ CSize (nColloc o.mesh) nx nu ncr nx q2 ∧
      CrStored (nColloc o.mesh) nx nu ncr (q2, w2) ∧
      (o.args.cr.timed = true → ∀ i k, CrRow o.args (nColloc o.mesh) q2 i k (seen o.args.cr (nodeTime sys o.mesh o.args.tf t i))
        (xd (nodeTime sys o.mesh o.args.tf t i)) (ud (nodeTime sys o.mesh o.args.tf t i))) ∧
      (∀ r, r < nx * nColloc o.mesh ∨ nx * nColloc o.mesh + ncr * nColloc o.mesh ≤ r ∨ o.args.cr.timed = false → ∀ c, q2.A.ent r c = q1.A.ent r c) ∧
      (∀ r, r < nx * nColloc o.mesh ∨ nx * nColloc o.mesh + ncr * nColloc o.mesh ≤ r ∨ o.args.cr.timed = false → q2.l.val r = q1.l.val r) ∧
      (∀ r, r < nx * nColloc o.mesh ∨ nx * nColloc o.mesh + ncr * nColloc o.mesh ≤ r ∨ o.args.cr.timed = false → q2.u.val r = q1.u.val r) := by
    cases ht : o.args.cr.timed with
    | false =>
      exact ⟨q1, o.work, by simp, rfl, rfl, rfl, hC1, hst1, (fun h => by cases h), fun _ _ _ => rfl, fun _ _ => rfl, fun _ _ => rfl⟩
    | true =>
      obtain ⟨q2, cr, e2, hP2, hq2, hC2, hs2, h2, h2l, h2u, k2, k2l, k2u⟩ := updateCr_spec sys.env o.mesh lo (fun _ => rfl) o.args.tf (zeroLin nu lin.dx)
        (q1, o.work) hC1 hst1
      refine ⟨q2, { o.work with cr := cr }, by rw [if_pos rfl]; exact e2, rfl, hP2, hq2, hC2, hs2, fun _ i k => ⟨fun v => ?_, ?_, ?_⟩,
        fun r h => k2 r (by simpa using h), fun r h => k2l r (by simpa using h), fun r h => k2u r (by simpa using h)⟩
      · rw [h2]
        congr 1
        funext a
        exact crFn_jac sys.plus o.args.cr t _ _ _ k a
      · rw [h2l]; rfl
      · rw [h2u]; rfl
  obtain ⟨q2, w2, e2, hw2, hP2, hq2, hC2, hst2, hcr2, k2, k2l, k2u⟩ := hcrstep
  have hse2 : CeStored (nColloc o.mesh) nx nu ncr nx (cePat sys) q2.A := hse1.of_ent fun r hr c => k2 r (Or.inr (Or.inl hr)) c
  obtain ⟨q3, e3, hP3, hq3, hC3, hse3, h3, h3l, h3u, k3, k3l, k3u⟩ := updateCe_spec o.mesh hN lo (fun _ => rfl) (cePat sys) o.args.tf
    (zeroLin nu lin.dx) (fun k c _ _ => ceFn_pat sys x o.args.tf (lin.x 0) (lin.x o.args.tf) (fun _ => 1) k c) (q2, w2) hC2 hse2
  have hvA : ∀ {a b : QPD ℝ} {r c : ℕ}, a.A.ent r c = b.A.ent r c → a.A.val r c = b.A.val r c := fun h => by unfold Sp.val; rw [h]
  have hrow : ∀ (p : Fin (nColloc o.mesh)) (k : Fin nx), nx * (p : ℕ) + k < nx * nColloc o.mesh := fun p k => row_le p k
  have hrow' : ∀ (p : Fin (nColloc o.mesh)) (k : Fin ncr), ncr * (p : ℕ) + k < ncr * nColloc o.mesh := fun p k => row_le p k
  refine ⟨{ o1 with qp := q3, work := w2 }, ?_, rfl, ⟨ho.kmesh, ho.mesh, ⟨?_, ?_, hC3, ?_, ?_, hse3⟩, ?_, ?_, ?_⟩, ?_, ?_, ?_, ?_, ?_, ?_, ?_⟩
  · have e1' : updateDynG nu sys.env o1.mesh sys.LX sys.comm (o1.ocp sys) o1.args.tf lin (o1.qp, o1.work) = some (q1, o.work) := by
      rw [updateDynG_local]; exact e1
    have e2' : (if o1.args.cr.timed then updateCrG nu sys.env o1.mesh (o1.ocp sys) o1.args.tf lin (q1, o.work) else some (q1, o.work)) =
      some (q2, w2) := by
      rw [updateCrG_local]; exact e2
    have e3' : updateCeG o1.mesh (o1.ocp sys) o1.args.tf lin (q2, w2) = some (q3, w2) := e3
    unfold Obj.transcribe
    simp only
    rw [← hlin, ← ho1, e1', Option.bind_some, e2', Option.bind_some, e3']
    rfl
  · simp only
    rw [hP3, hP2, hP1]
    exact ho.inv.P
  · simp only
    rw [hq3, hq2, hq1]
    exact ho.inv.q
  · simp only
    rw [hw2]
    exact ho.inv.int
  · exact CrStored.of_ent hst2 rfl fun r _ hr c => k3 r hr c
  · simp only
    rw [hP3, hP2, hP1]
    exact ho.P
  · simp only
    rw [hq3, hq2, hq1]
    exact ho.q
  · intro ht i k
    have h0 := ho.cr ht i k
    have hb : nx * nColloc o.mesh + (ncr * (i : ℕ) + k) < nx * nColloc o.mesh + ncr * nColloc o.mesh := by have := hrow' i k; omega
    have hb' : nx * nColloc o.mesh ≤ nx * nColloc o.mesh + (ncr * (i : ℕ) + k) := by omega
    refine ⟨fun v => ?_, ?_, ?_⟩
    · exact (hvA (k3 _ hb _)).trans ((hvA (k2 _ (Or.inr (Or.inr ht)) _)).trans ((hvA (hk1 _ hb' _)).trans (h0.A v)))
    · exact (k3l _ hb).trans ((k2l _ (Or.inr (Or.inr ht))).trans ((hkl1 _ hb').trans h0.l))
    · exact (k3u _ hb).trans ((k2u _ (Or.inr (Or.inr ht))).trans ((hku1 _ hb').trans h0.u))
  · intro p k v
    have hb := hrow p k
    have hb' : nx * (p : ℕ) + k < nx * nColloc o.mesh + ncr * nColloc o.mesh := by omega
    exact (hvA (k3 _ hb' _)).trans ((hvA (k2 _ (Or.inl hb) _)).trans (hdyn p k v))
  · intro p k
    have hb := hrow p k
    have hb' : nx * (p : ℕ) + k < nx * nColloc o.mesh + ncr * nColloc o.mesh := by omega
    exact (k3l _ hb').trans ((k2l _ (Or.inl hb)).trans (hdl1 p k))
  · intro p k
    have hb := hrow p k
    have hb' : nx * (p : ℕ) + k < nx * nColloc o.mesh + ncr * nColloc o.mesh := by omega
    exact (k3u _ hb').trans ((k2u _ (Or.inl hb)).trans (hdu1 p k))
  · intro ht i k
    have h0 := hcr2 ht i k
    have hb : nx * nColloc o.mesh + (ncr * (i : ℕ) + k) < nx * nColloc o.mesh + ncr * nColloc o.mesh := by have := hrow' i k; omega
    exact ⟨fun v => (hvA (k3 _ hb _)).trans (h0.A v), (k3l _ hb).trans h0.l, (k3u _ hb).trans h0.u⟩
  · intro k v
    have h := h3 k v
    simp only
    rw [h]
    have hj : ∀ a : EArg nx 1, (lo.ce.jac (linEnd (zeroLin nu lin.dx) o.args.tf)).val k a.pos = match a with
      | .x0 l => patInv sys (sys.rminus (xd (sys.plus t 0)) x) k l
      | _ => 0 := fun a => ceFn_jac sys x o.args.tf (lin.x 0) (lin.x o.args.tf) (fun _ => 1) k a
    simp only [hj]
    cases v with
    | x j l => simp [pullQ]
    | u j l => rfl
  · intro k
    exact h3l k
  · intro k
    exact h3u k

/-! ### The constructor -/

theorem gHess_eye (hn : nu ≤ nx) : ∃ H, gHess (eye nx : Fin nx → Fin nx → ℝ) (eye nu) (Sp.empty (1 + nx + nu) (1 + nx + nu)) = some H ∧
    ∀ a b : Arg nx nu, H.val a.pos b.pos = if a = b ∧ a ≠ .t then 1 else 0 := by
  obtain ⟨H, e, -, -, h⟩ := gHess_spec (eye nx : Fin nx → Fin nx → ℝ) (eye nu) hn (Sp.empty (1 + nx + nu) (1 + nx + nu)) ⟨rfl, rfl⟩
  refine ⟨H, e, fun a b => ?_⟩
  rw [h]
  cases a with
  | t => simp [Arg.pos]
  | x k =>
    cases b with
    | t => simp [Arg.pos]
    | x l =>
      have h1 : (Arg.x k : Arg nx nu).pos = 1 + k := rfl
      have h2 : (Arg.x l : Arg nx nu).pos = 1 + l := rfl
      rw [h1, h2, if_pos (by omega), Nat.add_sub_cancel_left, Nat.add_sub_cancel_left, full_fin]
      simp [eye]
    | u l =>
      have h1 : (Arg.x k : Arg nx nu).pos = 1 + k := rfl
      have h2 : (Arg.u l : Arg nx nu).pos = 1 + nx + l := rfl
      rw [h1, h2, if_neg (by omega), if_neg (by omega), if_neg (by simp)]
  | u k =>
    cases b with
    | t => simp [Arg.pos]
    | x l =>
      have h1 : (Arg.u k : Arg nx nu).pos = 1 + nx + k := rfl
      have h2 : (Arg.x l : Arg nx nu).pos = 1 + l := rfl
      rw [h1, h2, if_neg (by omega), if_neg (by omega), if_neg (by simp)]
    | u l =>
      have h1 : (Arg.u k : Arg nx nu).pos = 1 + nx + k := rfl
      have h2 : (Arg.u l : Arg nx nu).pos = 1 + nx + l := rfl
      rw [h1, h2, if_neg (by omega), if_pos (by omega), Nat.add_sub_cancel_left, Nat.add_sub_cancel_left, full_fin]
      have hQ : full (eye nx : Fin nx → Fin nx → ℝ) k l = if k = l then 1 else 0 := by
        unfold full
        rw [dif_pos (by omega)]
        simp only [eye, Fin.mk.injEq, Fin.ext_iff]
      rw [hQ]
      by_cases hkl : k = l <;> simp [eye, hkl]

theorem thetaHess_eye : ∃ H, thetaHess (eye nx : Fin nx → Fin nx → ℝ) (Sp.empty (1 + 2 * nx + 1) (1 + 2 * nx + 1)) = some H ∧
    ∀ a b : EArg nx 1, H.val a.pos b.pos = match a, b with
      | .x0 k, .x0 l => if k = l then 1 else 0
      | _, _ => 0 := by
  obtain ⟨H, e, -, -, h⟩ := thetaHess_spec (eye nx : Fin nx → Fin nx → ℝ) (Sp.empty (1 + 2 * nx + 1) (1 + 2 * nx + 1)) ⟨rfl, rfl⟩
  refine ⟨H, e, fun a b => ?_⟩
  rw [h]
  have hp : ∀ a : EArg nx 1, (1 ≤ a.pos ∧ a.pos < 1 + nx) ↔ ∃ k, a = .x0 k := by
    intro a
    cases a with
    | x0 k => simp [EArg.pos]
    | tf => simp [EArg.pos]
    | xf k =>
      have h1 : (EArg.xf k : EArg nx 1).pos = 1 + nx + k := rfl
      rw [h1]
      refine ⟨fun h => by omega, fun ⟨_, h⟩ => by cases h⟩
    | q k =>
      have h1 : (EArg.q k : EArg nx 1).pos = 1 + 2 * nx + k := rfl
      rw [h1]
      refine ⟨fun h => by omega, fun ⟨_, h⟩ => by cases h⟩
  by_cases h1 : (1 ≤ a.pos ∧ a.pos < 1 + nx) ∧ 1 ≤ b.pos ∧ b.pos < 1 + nx
  · rw [if_pos h1]
    obtain ⟨k, rfl⟩ := (hp a).mp h1.1
    obtain ⟨l, rfl⟩ := (hp b).mp h1.2
    have h2 : (EArg.x0 k : EArg nx 1).pos - 1 = k := by simp only [EArg.pos]; omega
    have h3 : (EArg.x0 l : EArg nx 1).pos - 1 = l := by simp only [EArg.pos]; omega
    rw [h2, h3, full_fin]
    rfl
  · rw [if_neg h1, hp, hp] at *
    cases a <;> cases b <;> simp at h1 ⊢

theorem pullN_eye (i : Fin N) (v w : QVar N nx nu) :
    pullN i (fun a => pullN i (fun b => if a = b ∧ a ≠ (.t : Arg nx nu) then (1 : ℝ) else 0) w) v = if v = w then pullN i (fun _ => 1) v else 0 := by
  cases v with
  | x j k =>
    cases w with
    | x j' k' =>
      simp only [pullN, QVar.x.injEq, Arg.x.injEq, ne_eq, reduceCtorEq, not_false_eq_true, and_true]
      by_cases h1 : j = i.castSucc <;> by_cases h2 : j' = i.castSucc <;> by_cases h3 : k = k' <;> simp [h1, h2, h3]
      · intro h; exact absurd h.symm h2
    | u j' k' => simp [pullN]
  | u j k =>
    cases w with
    | x j' k' => simp [pullN]
    | u j' k' =>
      simp only [pullN, QVar.u.injEq, Arg.u.injEq, ne_eq, reduceCtorEq, not_false_eq_true, and_true]
      by_cases h1 : j = i <;> by_cases h2 : j' = i <;> by_cases h3 : k = k' <;> simp [h1, h2, h3]
      · intro h; exact absurd h.symm h2

/-- One on the coordinates of `x_0`. -/
def x0Wt : QVar N nx nu → ℝ
  | .x i _ => if (i : ℕ) = 0 then 1 else 0
  | .u _ _ => 0

theorem pullQQ_eye (hN : 1 ≤ N) (v w : QVar N nx nu) :
    pullQQ (fun a b : EArg nx 1 => match a, b with
      | .x0 k, .x0 l => if k = l then (1 : ℝ) else 0
      | _, _ => 0) v w = if v = w then x0Wt v else 0 := by
  unfold pullQQ
  cases v with
  | x j k =>
    cases w with
    | x j' k' =>
      simp only [pullQ, ite_self, add_zero, QVar.x.injEq, x0Wt]
      have h0 : ∀ j : Fin (N + 1), (j : ℕ) = 0 ↔ j = 0 := fun j => by rw [Fin.ext_iff, Fin.val_zero]
      simp only [h0]
      by_cases h1 : j = 0 <;> by_cases h2 : j' = 0 <;> by_cases h3 : k = k' <;> simp [h1, h2, h3]
      · intro h; exact absurd h.symm h2
    | u j' k' => simp [pullQ]
  | u j k => cases w <;> simp [pullQ, x0Wt]

theorem sum_pullN_one (env : Mesh.Env ℝ) (m : Mesh ℝ) (hN : 1 ≤ nColloc m) (tf : ℝ) (v : QVar (nColloc m) nx nu) :
    ∑ i : Fin (nColloc m), wAt env m i * (tf * pullN i (fun _ => 1) v) + 1 / 2 * x0Wt v = unitWt env m tf v := by
  cases v with
  | x j k =>
    simp only [pullN, unitWt, x0Wt]
    congr 1
    · by_cases h : (j : ℕ) < nColloc m
      · rw [if_pos h, Finset.sum_eq_single ⟨j, h⟩]
        · rw [if_pos (show j = (⟨(j : ℕ), h⟩ : Fin (nColloc m)).castSucc from Fin.ext rfl)]; ring
        · intro b _ hb
          rw [if_neg]
          · simp
          · intro h'
            apply hb
            exact Fin.ext (by simp [h'])
        · simp
      · rw [if_neg h]
        refine Finset.sum_eq_zero fun i _ => ?_
        rw [if_neg]
        · simp
        · intro h'
          rw [h'] at h
          exact h i.2
    · split_ifs <;> simp
  | u j k =>
    simp only [pullN, unitWt, x0Wt, mul_zero, add_zero]
    rw [Finset.sum_eq_single j]
    · rw [if_pos rfl]; ring
    · intro b _ hb
      rw [if_neg (Ne.symm hb)]; simp
    · simp

theorem new_ok (sys : Sys T ℝ σ X U nx nu) (a : Args T ℝ X U nx nu ncr) (xp up : ℕ) (o : Obj T ℝ σ X U nx nu ncr) (h : Obj.new sys a xp up = some o) :
    o.Ok sys ∧ o.args = a ∧ o.xp = xp ∧ o.up = up ∧ o.warm = none ∧ nu ≤ nx := by
  unfold Obj.new at h
  split_ifs at h with hK
  obtain ⟨mesh, hm, h⟩ := Option.bind_eq_some_iff.mp h
  obtain ⟨thetaH, hth, h⟩ := Option.bind_eq_some_iff.mp h
  obtain ⟨gH, hg, h⟩ := Option.bind_eq_some_iff.mp h
  have hn : nu ≤ nx := by
    by_contra hn
    rw [gHess_undef _ _ (by omega)] at hg
    cases hg
  obtain ⟨H1, e1, hH1⟩ := gHess_eye hn
  rw [e1] at hg
  obtain rfl := Option.some.inj hg
  obtain ⟨H2, e2, hH2⟩ := thetaHess_eye (nx := nx)
  rw [e2] at hth
  obtain rfl := Option.some.inj hth
  simp only at h
  set o0 : Obj T ℝ σ X U nx nu ncr :=
      { xp := xp, up := up, mesh := mesh, args := a, xfDes := sys.dfltX, Qtf := eye nx, thetaH := H2, Q := eye nx, R := eye nu,
        gH := H1, ft0 := sys.t00, crt0 := sys.t00, x0fix := sys.dfltX, work := ⟨freshMV, freshMV⟩,
        qp := ⟨Sp.empty 0 0, ⟨0, fun _ => 0⟩, Sp.empty 0 0 true, ⟨0, fun _ => .fin 0⟩, ⟨0, fun _ => .fin 0⟩⟩,
        solver := sys.solver.init, warm := none } with ho0
  have hV := valid_uniform hm
  have hN : 1 ≤ nColloc mesh := nColloc_pos hV.ne_nil fun v hv => by have := (hV.degree v hv).1; omega
  set lin := linOf sys.plus (newX sys : XCell T ℝ X nx) (newU sys : UCell T U) with hlin
  set l0 := localOCP nu (o0.ocp sys) (fun _ => sys.dfltX) (fun _ => sys.dfltU) a.tf with hl0
  set lo := localOCP nu (o0.ocp sys) lin.x lin.u a.tf with hlo
  obtain ⟨s, es, hs⟩ := allocate_spec sys.env mesh l0 (fun _ => rfl) (fun _ => rfl) (cePat sys) ⟨freshMV, freshMV⟩
    (Sized.fresh rfl) (Sized.fresh rfl)
  rw [allocateG_local sys.dfltX sys.dfltU sys.env mesh (o0.ocp sys) a.tf, es, Option.bind_some] at h
  obtain ⟨P, q, int, ec, hP, hq, hI, hPv, hqv⟩ := updateCost_raw sys.env mesh hN lo (fun _ => rfl) a.tf (zeroLin nu lin.dx) s hs.P hs.q hs.int
  obtain ⟨q1, ed, hP1, hq1, hC1, -, -, -, hk1, hkl1, hku1⟩ := updateDyn_spec sys.env mesh hV.ne_nil lo (fun _ => rfl)
    (localAd sys.LX sys.comm) (localAd_ok _ _) a.tf (zeroLin nu lin.dx) ({ s.1 with P := P, q := q }, { s.2 with int := int }) ⟨hs.con.A, hs.con.l, hs.con.u⟩
  have hst1 : CrStored (nColloc mesh) nx nu ncr (q1, { s.2 with int := int }) := CrStored.of_ent (s := s) hs.cr rfl fun r hr _ c => hk1 r hr c
  obtain ⟨q2, cr, er, hP2, hq2, hC2, hs2, h2, h2l, h2u, k2, k2l, k2u⟩ := updateCr_spec sys.env mesh lo (fun _ => rfl) a.tf (zeroLin nu lin.dx)
    (q1, { s.2 with int := int }) hC1 hst1
  have hse2 : CeStored (nColloc mesh) nx nu ncr nx (cePat sys) q2.A := CeStored.of_ent hs.ce fun r hr c =>
    (k2 r (Or.inr hr) c).trans (hk1 r (by omega) c)
  obtain ⟨q3, ee, hP3, hq3, hC3, hse3, -, -, -, k3, k3l, k3u⟩ := updateCe_spec mesh hN lo (fun _ => rfl) (cePat sys) a.tf (zeroLin nu lin.dx)
    (fun k c _ _ => ceFn_pat sys sys.dfltX a.tf (lin.x 0) (lin.x a.tf) (fun _ => 1) k c) (q2, { s.2 with int := int, cr := cr }) hC2 hse2
  have eu : updateG nu sys.env mesh sys.LX sys.comm (o0.ocp sys) a.tf lin s = some (q3, { s.2 with int := int, cr := cr }) := by
    rw [updateG_local]
    unfold update
    rw [ec, Option.bind_some, ed, Option.bind_some, er, Option.bind_some]
    exact ee
  rw [eu, Option.bind_some] at h
  obtain ⟨st, -, rfl⟩ := Option.map_eq_some_iff.mp h
  refine ⟨⟨by simp only [ho0]; omega, hm, ⟨?_, ?_, hC3, hI, ?_, hse3⟩, fun v w => ?_, fun v => ?_, fun ht i k => ?_⟩, rfl, rfl, rfl, rfl, hn⟩
  · simp only
    rw [hP3, hP2, hP1]
    exact hP
  · simp only
    rw [hq3, hq2, hq1]
    exact hq
  · exact CrStored.of_ent hs2 rfl fun r _ hr c => k3 r hr c
  · simp only
    rw [hP3, hP2, hP1]
    refine (hPv v w).trans ?_
    have hj : (lo.theta.jac (linEnd (zeroLin nu lin.dx) a.tf)).val 0 (1 + 2 * nx) = 1 := by
      simp [hlo, localOCP, localEFn, Obj.ocp, thetaFn, dense, Sp.val]
    have hg' : ∀ i : Fin (nColloc mesh), pullN i (fun a' => pullN i (fun b => (lo.g.hess (linPt (zeroLin nu lin.dx) (a.tf * tauAt sys.env mesh i))).val a'.pos b.pos) w) v =
        if v = w then pullN i (fun _ => (1 : ℝ)) v else 0 := by
      intro i
      rw [← pullN_eye]
      congr 1
      funext a'
      congr 1
      funext b
      exact hH1 a' b
    have ht' : pullQQ (fun a' b => (lo.theta.hess (linEnd (zeroLin nu lin.dx) a.tf)).val a'.pos b.pos) v w = if v = w then x0Wt v else 0 := by
      rw [← pullQQ_eye hN]
      congr 1
      funext a' b
      exact hH2 a' b
    rw [hj, one_mul]
    simp only [hg', ht']
    by_cases hvw : v = w
    · subst hvw
      simp only [le_refl, if_true]
      exact sum_pullN_one sys.env mesh hN a.tf v
    · simp [hvw]
  · simp only
    rw [hq3, hq2, hq1]
    refine (hqv v).trans ?_
    have h1 : ∀ i : Fin (nColloc mesh), pullN i (fun a' => (lo.g.jac (linPt (zeroLin nu lin.dx) (a.tf * tauAt sys.env mesh i))).val 0 a'.pos) v = (0 : ℝ) := by
      intro i
      have hz : (fun a' : Arg nx nu => (lo.g.jac (linPt (zeroLin nu lin.dx) (a.tf * tauAt sys.env mesh i))).val 0 a'.pos) = fun _ => (0 : ℝ) := by
        funext a'
        simp only [hlo, localOCP, localFn, Obj.ocp, gFn, dense, Sp.val]
        split_ifs <;> rfl
      rw [hz]
      cases v <;> simp [pullN]
    have h2 : pullQ (fun a' => (lo.theta.jac (linEnd (zeroLin nu lin.dx) a.tf)).val 0 a'.pos) v = (0 : ℝ) := by
      have hz : ∀ c, c ≠ 1 + 2 * nx → (lo.theta.jac (linEnd (zeroLin nu lin.dx) a.tf)).val 0 c = 0 := by
        intro c hc
        simp only [hlo, localOCP, localEFn, Obj.ocp, thetaFn, dense, Sp.val, if_neg hc]
        split_ifs <;> rfl
      cases v with
      | x j k =>
        simp only [pullQ]
        rw [hz _ (by simp only [EArg.pos]; omega), hz _ (by simp only [EArg.pos]; omega)]
        simp
      | u j k => rfl
    simp only [h1, h2, mul_zero, Finset.sum_const_zero, add_zero]
  · have hb : nx * nColloc mesh + (ncr * (i : ℕ) + k) < nx * nColloc mesh + ncr * nColloc mesh := by
      have : ncr * (i : ℕ) + k < ncr * nColloc mesh := row_le i k
      omega
    have ht0 : ∀ s, timeOf sys.plus a.cr sys.t00 s = none := fun s => by
      unfold timeOf
      have ht : a.cr.timed = false := ht
      rw [ht]; simp
    refine ⟨fun v => ?_, ?_, ?_⟩
    · have hvA : q3.A.val (nx * nColloc mesh + (ncr * (i : ℕ) + k)) v.pos = q2.A.val (nx * nColloc mesh + (ncr * (i : ℕ) + k)) v.pos := by
        unfold Sp.val; rw [k3 _ hb]
      refine (hvA.trans (h2 i k v)).trans ?_
      congr 1
      funext a'
      refine (crFn_jac sys.plus a.cr sys.t00 _ _ _ k a').trans ?_
      rw [ht0]
      rfl
    · refine ((k3l _ hb).trans (h2l i k)).trans ?_
      change extSub (a.crl k) (a.cr.val (timeOf sys.plus a.cr sys.t00 _) _ _ k) = _
      rw [ht0]
      rfl
    · refine ((k3u _ hb).trans (h2u i k)).trans ?_
      change extSub (a.cru k) (a.cr.val (timeOf sys.plus a.cr sys.t00 _) _ _ k) = _
      rw [ht0]
      rfl

end Verif.MPC
