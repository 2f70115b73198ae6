import Verif.Proofs.PatternObj
import Verif.Props.Ipopt
import Verif.Props.OCPNLPExamples
import Verif.Props.OCPQPCost

/-! # C73, C74: optimal control problems through the Ipopt interface -/

set_option linter.unusedSectionVars false

namespace Verif.Ipopt

open Verif.QP (Ext)
open Verif.QPSpec (lower upper)
open Verif.Sparse Verif.MeshFn Verif.Mesh Verif.NLP Verif.Pattern

variable {nx nu nq ncr nce : ℕ} {env : Mesh.Env ℝ} {ocp : OCP ℝ nx nu nq ncr nce} {m : Mesh ℝ}

/-! ### C73 -/

/-- The sizes, and at most the positions of the reference calls. -/
def Both (nx nu nq ncr nce : ℕ) (m : Mesh ℝ) (r1 r2 r3 s : Obj ℝ) : Prop := Inv nx nu nq ncr nce (nColloc m) s ∧ PInv r1 r2 r3 s

/-- The reference calls. -/
theorem ref_exists (env : Mesh.Env ℝ) (hm : m ≠ []) (hK : ∀ v ∈ m, 1 ≤ v.K) (hq : 1 ≤ nq) (hd : IsDrOCP ocp) :
    ∃ x0 l0 r1 r2 r3, x0.size = nVars (nColloc m) nx nu nq ∧ l0.size = nCons (nColloc m) nx nq ncr nce ∧
      Obj.dgdx env ocp m x0 (Obj.init nx nu nq ncr nce (nColloc m)) = some r1 ∧
      Obj.d2fdx2 ocp m x0 (Obj.init nx nu nq ncr nce (nColloc m)) = some r2 ∧
      Obj.d2gdx2 env ocp m x0 l0 (Obj.init nx nu nq ncr nce (nColloc m)) = some r3 := by
  have hi := init_inv (nx := nx) (nu := nu) (nq := nq) (ncr := ncr) (nce := nce) (nColloc m)
  let x0 : Vec ℝ := ⟨nVars (nColloc m) nx nu nq, fun _ => 0⟩
  let l0 : Vec ℝ := ⟨nCons (nColloc m) nx nq ncr nce, fun _ => 0⟩
  obtain ⟨r1, e1, -⟩ := dgdx_spec env m hm hK ocp hd (IsVec.of_size (x := x0) rfl) hi
  obtain ⟨r2, e2, -⟩ := d2fdx2_spec m (nColloc_pos hm hK) ocp hd.theta (IsVec.of_size (x := x0) rfl) hi
  obtain ⟨r3, e3, -⟩ := d2gdx2_spec env m hm hK hq ocp hd (IsVec.of_size (x := x0) rfl) (lambda := l0) rfl hi
  exact ⟨x0, l0, r1, r2, r3, rfl, rfl, e1, e2, e3⟩

section
variable {x0 l0 : Vec ℝ} {r1 r2 r3 : Obj ℝ} (hm : m ≠ []) (hK : ∀ v ∈ m, 1 ≤ v.K) (hq : 1 ≤ nq) (hd : IsDrOCP ocp) (hf : FixedOCP ocp)
  (hx0 : x0.size = nVars (nColloc m) nx nu nq) (hl0 : l0.size = nCons (nColloc m) nx nq ncr nce)
  (e1 : Obj.dgdx env ocp m x0 (Obj.init nx nu nq ncr nce (nColloc m)) = some r1)
  (e2 : Obj.d2fdx2 ocp m x0 (Obj.init nx nu nq ncr nce (nColloc m)) = some r2)
  (e3 : Obj.d2gdx2 env ocp m x0 l0 (Obj.init nx nu nq ncr nce (nColloc m)) = some r3)
include hm hK hq hd hf hx0 hl0 e1 e2 e3

theorem call_both {c : NLP.Call} (hc : c.Ok (nVars (nColloc m) nx nu nq) (nCons (nColloc m) nx nq ncr nce)) {s : Obj ℝ}
    (hs : Both nx nu nq ncr nce m r1 r2 r3 s) : ∃ s', c.run env ocp m s = some s' ∧ Both nx nu nq ncr nce m r1 r2 r3 s' := by
  cases c with
  | df x =>
    obtain ⟨s', e, h, -⟩ := dfdx_spec m (nColloc_pos hm hK) ocp hd.theta (IsVec.of_size (x := x) hc) hs.1
    refine ⟨s', e, h, ?_⟩
    unfold Obj.dfdx at e
    dsimp only at e
    split at e
    · split at e
      · exact absurd e (by simp)
      · obtain rfl := Option.some.inj e
        exact { hs.2 with }
    · exact absurd e (by simp)
  | d2f x =>
    obtain ⟨s', e, h, -⟩ := d2fdx2_spec m (nColloc_pos hm hK) ocp hd.theta (IsVec.of_size (x := x) hc) hs.1
    exact ⟨s', e, h, (d2fdx2_pat hf e2 hs.2 e).1⟩
  | g x =>
    obtain ⟨s', e, h, -⟩ := geval_spec env m hm hK ocp (IsVec.of_size (x := x) hc) hs.1
    refine ⟨s', e, h, ?_⟩
    unfold Obj.geval at e
    dsimp only at e
    repeat' split at e
    all_goals first
      | (obtain rfl := Option.some.inj e
         exact { hs.2 with })
      | exact absurd e (by simp)
  | dg x =>
    obtain ⟨s', e, h, -⟩ := dgdx_spec env m hm hK ocp hd (IsVec.of_size (x := x) hc) hs.1
    exact ⟨s', e, h, (dgdx_pat hd hf hm hK hx0 e1 hs.1 hs.2 hc e).1⟩
  | d2g x l =>
    obtain ⟨s', e, h, -⟩ := d2gdx2_spec env m hm hK hq ocp hd (IsVec.of_size (x := x) hc.1) hc.2 hs.1
    exact ⟨s', e, h, (d2gdx2_pat hd hf hm hK hq hx0 hl0 e3 hs.1 hs.2 hc.1 e).1⟩

theorem history_both (l : List NLP.Call) (hl : ∀ c ∈ l, c.Ok (nVars (nColloc m) nx nu nq) (nCons (nColloc m) nx nq ncr nce)) :
    ∃ s, history env ocp m l = some s ∧ Both nx nu nq ncr nce m r1 r2 r3 s := by
  have key : ∀ (l : List NLP.Call) (s : Obj ℝ), (∀ c ∈ l, c.Ok (nVars (nColloc m) nx nu nq) (nCons (nColloc m) nx nq ncr nce)) →
      Both nx nu nq ncr nce m r1 r2 r3 s → ∃ s', iter (NLP.Call.run env ocp m) l s = some s' ∧ Both nx nu nq ncr nce m r1 r2 r3 s' := by
    intro l
    induction l with
    | nil => exact fun s _ hs => ⟨s, rfl, hs⟩
    | cons c l ih =>
      intro s hl hs
      obtain ⟨s1, a1, b1⟩ := call_both hm hK hq hd hf hx0 hl0 e1 e2 e3 (hl c (by simp)) hs
      obtain ⟨s2, a2, b2⟩ := ih s1 (fun c hc => hl c (by simp [hc])) b1
      exact ⟨s2, by simp only [iter, a1, a2], b2⟩
  exact key l _ hl ⟨init_inv _, init_pinv _ _ _ _⟩

end

/-- **C73.** For a problem whose derivatives always store the same positions: the constraint Jacobian, the Hessian of the objective and
the Hessian of the constraints store the same positions at every point, with every multiplier, after every history of calls; the
Hessians store nothing below the diagonal. -/
theorem nlp_pattern (env : Mesh.Env ℝ) (m : Mesh ℝ) (hm : m ≠ []) (hK : ∀ v ∈ m, 1 ≤ v.K) (hq : 1 ≤ nq)
    (ocp : OCP ℝ nx nu nq ncr nce) (hd : IsDrOCP ocp) (hf : FixedOCP ocp) :
    ∃ PJ PF PG : ℕ → ℕ → Prop, (∀ i j, PF i j ∨ PG i j → i ≤ j) ∧
      ∀ (l : List NLP.Call) (_ : ∀ c ∈ l, c.Ok (nVars (nColloc m) nx nu nq) (nCons (nColloc m) nx nq ncr nce)),
      ∃ s, history env ocp m l = some s ∧
        ∀ x lambda : Vec ℝ, x.size = nVars (nColloc m) nx nu nq → lambda.size = nCons (nColloc m) nx nq ncr nce →
          ∃ s1 s2 s3, Obj.dgdx env ocp m x s = some s1 ∧ Obj.d2fdx2 ocp m x s = some s2 ∧ Obj.d2gdx2 env ocp m x lambda s = some s3 ∧
            ∀ i j, ((s1.dg.ent i j).isSome = true ↔ PJ i j) ∧ ((s2.d2f.ent i j).isSome = true ↔ PF i j) ∧ ((s3.d2g.ent i j).isSome = true ↔ PG i j) := by
  obtain ⟨x0, l0, r1, r2, r3, hx0, hl0, e1, e2, e3⟩ := ref_exists env hm hK hq hd
  refine ⟨pat r1.dg, pat r2.d2f, pat r3.d2g, fun i j h => h.elim (d2fdx2_upper e2 i j) (d2gdx2_upper e3 i j), fun l hl => ?_⟩
  obtain ⟨s, e, hs⟩ := history_both hm hK hq hd hf hx0 hl0 e1 e2 e3 l hl
  refine ⟨s, e, fun x lambda hx hl => ?_⟩
  obtain ⟨s1, a1, -⟩ := dgdx_spec env m hm hK ocp hd (IsVec.of_size hx) hs.1
  obtain ⟨s2, a2, -⟩ := d2fdx2_spec m (nColloc_pos hm hK) ocp hd.theta (IsVec.of_size hx) hs.1
  obtain ⟨s3, a3, -⟩ := d2gdx2_spec env m hm hK hq ocp hd (IsVec.of_size hx) hl hs.1
  exact ⟨s1, s2, s3, a1, a2, a3, fun i j => ⟨(dgdx_pat hd hf hm hK hx0 e1 hs.1 hs.2 hx a1).2 i j, (d2fdx2_pat hf e2 hs.2 a2).2 i j,
    (d2gdx2_pat hd hf hm hK hq hx0 hl0 e3 hs.1 hs.2 hx a3).2 i j⟩⟩

/-! ### C74 -/

/-- The variable (constraint) at a position. -/
noncomputable def varAt (N nx nu nq r : ℕ) : NVar N nx nu nq := open Classical in if h : ∃ v : NVar N nx nu nq, v.pos = r then h.choose else .tf

theorem varAt_pos {N : ℕ} (v : NVar N nx nu nq) : varAt N nx nu nq v.pos = v := by
  unfold varAt
  rw [dif_pos ⟨v, rfl⟩]
  exact NVar.pos_inj (Exists.choose_spec (⟨v, rfl⟩ : ∃ w : NVar N nx nu nq, w.pos = v.pos))

open Classical in
/-- The meaning of the problem: the objective, the constraint functions and their partial derivatives. -/
noncomputable def ocpM (env : Mesh.Env ℝ) (ocp : OCP ℝ nx nu nq ncr nce) (m : Mesh ℝ) (PJ PF PG : ℕ → ℕ → Prop) : Meaning ℝ where
  f := fun x => objective ocp fun v : NVar (nColloc m) nx nu nq => x.val v.pos
  df := fun x j => pd (objective ocp) (varAt (nColloc m) nx nu nq j) fun v => x.val v.pos
  g := fun x i => ∑ c : NCon (nColloc m) nx nq ncr nce, if c.pos = i then conFn ocp env m (wScaling env m) c fun v => x.val v.pos else 0
  dg := fun x i j => ∑ c : NCon (nColloc m) nx nq ncr nce,
    if c.pos = i then pd (conFn ocp env m (wScaling env m) c) (varAt (nColloc m) nx nu nq j) fun v => x.val v.pos else 0
  d2f := fun x i j => if i ≤ j ∧ ¬ mixed (varAt (nColloc m) nx nu nq i) (varAt (nColloc m) nx nu nq j) then
    pd (pd (objective ocp) (varAt (nColloc m) nx nu nq i)) (varAt (nColloc m) nx nu nq j) fun v => x.val v.pos else 0
  d2g := fun x l i j => if i ≤ j ∧ ¬ mixed (varAt (nColloc m) nx nu nq i) (varAt (nColloc m) nx nu nq j) then
    pd (pd (lagr ocp env m (wScaling env m) l) (varAt (nColloc m) nx nu nq i)) (varAt (nColloc m) nx nu nq j) fun v => x.val v.pos else 0
  patJ := fun i j => decide (PJ i j)
  rowMajorJ := false
  patF := fun i j => decide (PF i j)
  patG := fun i j => decide (PG i j)

theorem sum_con {N : ℕ} (F : NCon N nx nq ncr nce → ℝ) (c : NCon N nx nq ncr nce) :
    (∑ d : NCon N nx nq ncr nce, if d.pos = c.pos then F d else 0) = F c := by
  have : ∀ d : NCon N nx nq ncr nce, (if d.pos = c.pos then F d else 0) = if d = c then F d else 0 := by
    intro d
    by_cases h : d = c
    · rw [if_pos h, if_pos (by rw [h])]
    · rw [if_neg h, if_neg fun e => h (NCon.pos_inj e)]
  simp [this]

theorem ocp_steady (hm : m ≠ []) (hK : ∀ v ∈ m, 1 ≤ v.K) (hq : 1 ≤ nq) (hd : IsDrOCP ocp) (hf : FixedOCP ocp) (jl ju : ℕ → Ext ℝ)
    {x0 l0 : Vec ℝ} {r1 r2 r3 : Obj ℝ} (hx0 : x0.size = nVars (nColloc m) nx nu nq) (hl0 : l0.size = nCons (nColloc m) nx nq ncr nce)
    (e1 : Obj.dgdx env ocp m x0 (Obj.init nx nu nq ncr nce (nColloc m)) = some r1)
    (e2 : Obj.d2fdx2 ocp m x0 (Obj.init nx nu nq ncr nce (nColloc m)) = some r2)
    (e3 : Obj.d2gdx2 env ocp m x0 l0 (Obj.init nx nu nq ncr nce (nColloc m)) = some r3) :
    Steady (ofOCP env ocp m jl ju) (ocpM env ocp m (pat r1.dg) (pat r2.d2f) (pat r3.d2g)) (Both nx nu nq ncr nce m r1 r2 r3) := by
  obtain ⟨en, em, -, vs, -, cs⟩ := nlp_layout nx nu nq ncr nce (nColloc m)
  have toB : ∀ {A : Sp ℝ} {P : ℕ → ℕ → Prop} (_ : ∀ i j, pat A i j ↔ P i j) (i j : ℕ) (_ : Decidable (P i j)), (A.ent i j).isSome = decide (P i j) := by
    intro A P h i j _
    rw [Bool.eq_iff_iff, decide_eq_true_iff]
    exact h i j
  refine ⟨?_, ?_, ?_, ?_, ?_, ?_, ?_, ⟨rfl, rfl, rfl, rfl⟩⟩
  · intro s x hs hx
    refine ⟨s, ?_, hs⟩
    simp only [ofOCP, nlp_objective ocp m x (hx.trans en), Option.map_some]
    rfl
  · intro s x hs hx
    have hx' : x.size = nVars (nColloc m) nx nu nq := hx.trans en
    obtain ⟨s', a, b, h⟩ := dfdx_spec m (nColloc_pos hm hK) ocp hd.theta (IsVec.of_size hx') hs.1
    obtain ⟨s'', a', b'⟩ := call_both hm hK hq hd hf hx0 hl0 e1 e2 e3 (c := .df x) hx' hs
    obtain rfl : s' = s'' := Option.some.inj (a.symm.trans a')
    refine ⟨s'.df, s', ?_, b', b.df.1, b.df.2.trans en.symm, fun j hj => ?_⟩
    · simp only [ofOCP, a, Option.map_some]
    · obtain ⟨v, rfl, -⟩ := vs j hj
      simp only [ocpM, varAt_pos]
      exact h v
  · intro s x hs hx
    have hx' : x.size = nVars (nColloc m) nx nu nq := hx.trans en
    obtain ⟨s', a, b, h⟩ := geval_spec env m hm hK ocp (IsVec.of_size hx') hs.1
    obtain ⟨s'', a', b'⟩ := call_both hm hK hq hd hf hx0 hl0 e1 e2 e3 (c := .g x) hx' hs
    obtain rfl : s' = s'' := Option.some.inj (a.symm.trans a')
    refine ⟨s'.g, s', ?_, b', b.g.trans em.symm, fun j hj => ?_⟩
    · simp only [ofOCP, a, Option.map_some]
    · obtain ⟨c, rfl, -⟩ := cs j hj
      simp only [ocpM]
      rw [sum_con]
      exact h c
  · intro s x hs hx
    have hx' : x.size = nVars (nColloc m) nx nu nq := hx.trans en
    obtain ⟨s', a, b, h⟩ := dgdx_spec env m hm hK ocp hd (IsVec.of_size hx') hs.1
    obtain ⟨b', hp⟩ := dgdx_pat hd hf hm hK hx0 e1 hs.1 hs.2 hx' a
    refine ⟨s'.dg, s', ?_, ⟨b, b'⟩, b'.order, b.dg.1.trans em.symm, b.dg.2.trans en.symm, fun i _ j _ => toB hp i j _, fun i hi j hj => ?_⟩
    · simp only [ofOCP, a, Option.map_some]
    · obtain ⟨c, rfl, -⟩ := cs i hi
      obtain ⟨v, rfl, -⟩ := vs j hj
      simp only [ocpM, varAt_pos]
      rw [sum_con]
      exact h c v
  · intro s x hs hx
    have hx' : x.size = nVars (nColloc m) nx nu nq := hx.trans en
    obtain ⟨s', a, b, h⟩ := d2fdx2_spec m (nColloc_pos hm hK) ocp hd.theta (IsVec.of_size hx') hs.1
    obtain ⟨b', hp⟩ := d2fdx2_pat hf e2 hs.2 a
    refine ⟨s'.d2f, s', ?_, ⟨b, b'⟩, b.d2f.1.trans en.symm, b.d2f.2.trans en.symm, fun i _ j _ => toB hp i j _, fun i hi j hj => ?_⟩
    · simp only [ofOCP, a, Option.map_some]
    · obtain ⟨v, rfl, -⟩ := vs i hi
      obtain ⟨w, rfl, -⟩ := vs j hj
      simp only [ocpM, varAt_pos]
      rw [h v w]
  · intro s x l hs hx hl
    have hx' : x.size = nVars (nColloc m) nx nu nq := hx.trans en
    have hl' : l.size = nCons (nColloc m) nx nq ncr nce := hl.trans em
    obtain ⟨s', a, b, h⟩ := d2gdx2_spec env m hm hK hq ocp hd (IsVec.of_size hx') hl' hs.1
    obtain ⟨b', hp⟩ := d2gdx2_pat hd hf hm hK hq hx0 hl0 e3 hs.1 hs.2 hx' a
    refine ⟨s'.d2g, s', ?_, ⟨b, b'⟩, b.d2g.1.trans en.symm, b.d2g.2.trans en.symm, fun i _ j _ => toB hp i j _, fun i hi j hj => ?_⟩
    · simp only [ofOCP, a, Option.map_some]
    · obtain ⟨v, rfl, -⟩ := vs i hi
      obtain ⟨w, rfl, -⟩ := vs j hj
      simp only [ocpM, varAt_pos]
      rw [h v w]
  · rintro i j (h | h)
    · exact d2fdx2_upper e2 i j (@of_decide_eq_true _ (_) h)
    · exact d2gdx2_upper e3 i j (@of_decide_eq_true _ (_) h)

theorem objective_contDiff (hd : IsDrOCP ocp) : ContDiff ℝ 2 (objective ocp : (NVar (nColloc m) nx nu nq → ℝ) → ℝ) :=
  (hd.theta.smooth 0).comp ends_contDiff'

/-- What the stored Hessians mean for problems without mixed second derivatives. -/
theorem ocp_second (hm : m ≠ []) (hK : ∀ v ∈ m, 1 ≤ v.K) (hq : 1 ≤ nq) (hd : IsDrOCP ocp) (ht : Separates ocp.theta) (hc : Separates ocp.ce)
    (x lambda : Vec ℝ) (hx : x.size = nVars (nColloc m) nx nu nq) (hl : lambda.size = nCons (nColloc m) nx nq ncr nce)
    (PJ PF PG : ℕ → ℕ → Prop) (v w : NVar (nColloc m) nx nu nq) (h : v.pos ≤ w.pos) :
    (ocpM env ocp m PJ PF PG).d2f x v.pos w.pos = pd (pd (objective ocp) v) w (fun v => x.val v.pos) ∧
    (ocpM env ocp m PJ PF PG).d2g x lambda v.pos w.pos = pd (pd (lagr ocp env m (wScaling env m) lambda) v) w fun v => x.val v.pos := by
  obtain ⟨s, s', s'', e, e', e'', hh⟩ := nlp_hessians_exact env m hm hK hq ocp hd ht hc [] (by simp) x lambda hx hl
  have hi := init_inv (nx := nx) (nu := nu) (nq := nq) (ncr := ncr) (nce := nce) (nColloc m)
  obtain rfl : Obj.init nx nu nq ncr nce (nColloc m) = s := Option.some.inj e
  obtain ⟨t', a', -, h1⟩ := d2fdx2_spec m (nColloc_pos hm hK) ocp hd.theta (IsVec.of_size hx) hi
  obtain ⟨t'', a'', -, h2⟩ := d2gdx2_spec env m hm hK hq ocp hd (IsVec.of_size hx) hl hi
  obtain rfl : s' = t' := Option.some.inj (e'.symm.trans a')
  obtain rfl : s'' = t'' := Option.some.inj (e''.symm.trans a'')
  obtain ⟨k1, k2⟩ := hh v w
  rw [if_pos h] at k1 k2
  simp only [ocpM, varAt_pos]
  exact ⟨(h1 v w).symm.trans k1, (h2 v w).symm.trans k2⟩

/-- **C74, Hessian.** Optimal control problem, collocation, Ipopt interface: if the derivatives of the problem are exact, always store
the same positions, and have no mixed second derivatives by integrals and states, then after every history of callbacks the matrix that
Ipopt assembles from the triplets is the Hessian of `σ objective + ∑ λ_c constraint_c` of the collocated problem at the point asked for. -/
theorem ipopt_ocp_hessian (env : Mesh.Env ℝ) (m : Mesh ℝ) (hm : m ≠ []) (hK : ∀ v ∈ m, 1 ≤ v.K) (hq : 1 ≤ nq)
    (ocp : OCP ℝ nx nu nq ncr nce) (hd : IsDrOCP ocp) (hf : FixedOCP ocp) (ht : Separates ocp.theta) (hc : Separates ocp.ce) (jl ju : ℕ → Ext ℝ) :
    ∃ (S : List (ℕ × ℕ)) (nJ : ℕ), S.Nodup ∧ (∀ e ∈ S, e.2 ≤ e.1 ∧ e.1 < nVars (nColloc m) nx nu nq) ∧
      ∀ (junk : NLPStatus) (warm : Option (NLPSol ℝ)) (_ : ∀ v, warm = some v → Sized (nVars (nColloc m) nx nu nq) (nCons (nColloc m) nx nq ncr nce) v),
        (∃ w, getInfo (ofOCP env ocp m jl ju) true ⟨Obj.init nx nu nq ncr nce (nColloc m), initSol (nVars (nColloc m) nx nu nq) junk warm, Sp.empty 0 0⟩
          = some (⟨nVars (nColloc m) nx nu nq, nCons (nColloc m) nx nq ncr nce, nJ, S.length⟩, w)) ∧
        ∀ (l : List (CB ℝ)) (_ : ∀ c ∈ l, c.Ok (nVars (nColloc m) nx nu nq) (nCons (nColloc m) nx nq ncr nce) nJ S.length true warm.isSome),
        ∃ w, after (ofOCP env ocp m jl ju) (Obj.init nx nu nq ncr nce (nColloc m)) junk warm true l = some w ∧
          (∃ w', hessStruct (ofOCP env ocp m jl ju) true S.length w = some (S, w')) ∧
          ∀ (x : Vec ℝ) (sigma : ℝ) (lambda : Vec ℝ), x.size = nVars (nColloc m) nx nu nq → lambda.size = nCons (nColloc m) nx nq ncr nce →
            ∃ V w', hessVal (ofOCP env ocp m jl ju) true S.length x sigma lambda w = some (V, w') ∧ V.length = S.length ∧
              ∀ v w : NVar (nColloc m) nx nu nq, symmetric S V v.pos w.pos =
                pd (pd (fun z => sigma * objective ocp z + ∑ c : NCon (nColloc m) nx nq ncr nce, lambda.val c.pos * conFn ocp env m (wScaling env m) c z) v) w
                  fun v => x.val v.pos := by
  obtain ⟨x0, l0, r1, r2, r3, hx0, hl0, e1, e2, e3⟩ := ref_exists env hm hK hq hd
  have hS := ocp_steady hm hK hq hd hf jl ju hx0 hl0 e1 e2 e3
  obtain ⟨S, nJ, a1, a2, a3⟩ := ipopt_hessian_partial hS rfl
  obtain ⟨en, em, vl, -, -, -⟩ := nlp_layout nx nu nq ncr nce (nColloc m)
  have en' : (ofOCP env ocp m jl ju).n = nVars (nColloc m) nx nu nq := en
  have em' : (ofOCP env ocp m jl ju).m = nCons (nColloc m) nx nq ncr nce := em
  rw [en'] at a2
  refine ⟨S, nJ, a1, a2, fun junk warm hw => ?_⟩
  have hi : Both nx nu nq ncr nce m r1 r2 r3 (Obj.init nx nu nq ncr nce (nColloc m)) := ⟨init_inv _, init_pinv _ _ _ _⟩
  obtain ⟨b1, b2⟩ := a3 _ hi junk warm (by rw [en', em']; exact hw)
  rw [en', em'] at b1 b2
  refine ⟨b1, fun l hl => ?_⟩
  obtain ⟨w, c1, c2, c3⟩ := b2 l hl
  refine ⟨w, c1, c2, fun x sigma lambda hx hl => ?_⟩
  obtain ⟨V, w', d1, d2, d3⟩ := c3 x sigma lambda hx hl
  refine ⟨V, w', d1, d2, fun v w => ?_⟩
  have cf := objective_contDiff (m := m) (nu := nu) hd
  have cg : ContDiff ℝ 2 (lagr ocp env m (wScaling env m) lambda : (NVar (nColloc m) nx nu nq → ℝ) → ℝ) := by
    unfold lagr
    exact ContDiff.sum fun c _ => contDiff_const.mul (conFn_contDiff env m ocp hd (wScaling env m) c)
  have hsum : pd (pd (fun z => sigma * objective ocp z + ∑ c : NCon (nColloc m) nx nq ncr nce, lambda.val c.pos * conFn ocp env m (wScaling env m) c z) v) w
      (fun v => x.val v.pos) = sigma * pd (pd (objective ocp) v) w (fun v => x.val v.pos) +
        pd (pd (lagr ocp env m (wScaling env m) lambda) v) w fun v => x.val v.pos := by
    rw [← pd_pd_const_mul cf]
    exact pd_pd_add (contDiff_const.mul cf) cg v w _
  rw [hsum]
  have vl' : ∀ v : NVar (nColloc m) nx nu nq, v.pos < nVars (nColloc m) nx nu nq := fun v => (vl v).trans_eq en
  have hu : ∀ v w : NVar (nColloc m) nx nu nq, v.pos ≤ w.pos → triplet S V w.pos v.pos =
      sigma * pd (pd (objective ocp) v) w (fun v => x.val v.pos) + pd (pd (lagr ocp env m (wScaling env m) lambda) v) w fun v => x.val v.pos := by
    intro v w h
    obtain ⟨k1, k2⟩ := ocp_second (env := env) hm hK hq hd ht hc x lambda hx hl (pat r1.dg) (pat r2.d2f) (pat r3.d2g) v w h
    rw [d3 _ (vl' w) _ (vl' v), k1, k2]
  unfold symmetric
  split_ifs with h
  · rw [hu w v h, OQP.pd_comm cf, OQP.pd_comm cg]
  · exact hu v w (by omega)

/-- **C74, first derivatives and values.** In the same way: objective, gradient, constraints and Jacobian of the collocated problem. -/
theorem ipopt_ocp_first_order (env : Mesh.Env ℝ) (m : Mesh ℝ) (hm : m ≠ []) (hK : ∀ v ∈ m, 1 ≤ v.K) (hq : 1 ≤ nq)
    (ocp : OCP ℝ nx nu nq ncr nce) (hd : IsDrOCP ocp) (hf : FixedOCP ocp) (jl ju : ℕ → Ext ℝ) (uh : Bool) :
    ∃ (S : List (ℕ × ℕ)) (nH : ℕ), (∀ e ∈ S, e.1 < nCons (nColloc m) nx nq ncr nce ∧ e.2 < nVars (nColloc m) nx nu nq) ∧
      ∀ (junk : NLPStatus) (warm : Option (NLPSol ℝ)) (_ : ∀ v, warm = some v → Sized (nVars (nColloc m) nx nu nq) (nCons (nColloc m) nx nq ncr nce) v),
        (∃ w k, getInfo (ofOCP env ocp m jl ju) uh ⟨Obj.init nx nu nq ncr nce (nColloc m), initSol (nVars (nColloc m) nx nu nq) junk warm, Sp.empty 0 0⟩
          = some (⟨nVars (nColloc m) nx nu nq, nCons (nColloc m) nx nq ncr nce, S.length, k⟩, w) ∧ (uh = true → k = nH)) ∧
        ∀ (l : List (CB ℝ)) (_ : ∀ c ∈ l, c.Ok (nVars (nColloc m) nx nu nq) (nCons (nColloc m) nx nq ncr nce) S.length nH uh warm.isSome),
        ∃ w, after (ofOCP env ocp m jl ju) (Obj.init nx nu nq ncr nce (nColloc m)) junk warm uh l = some w ∧
          (∃ w', jacStruct (ofOCP env ocp m jl ju) S.length w = some (S, w')) ∧
          ∀ x : Vec ℝ, x.size = nVars (nColloc m) nx nu nq →
            (∃ w', evalF (ofOCP env ocp m jl ju) x w = some (objective ocp (fun v : NVar (nColloc m) nx nu nq => x.val v.pos), w')) ∧
            (∃ d w', evalGradF (ofOCP env ocp m jl ju) x w = some (d, w') ∧ d.length = nVars (nColloc m) nx nu nq ∧
              ∀ v : NVar (nColloc m) nx nu nq, d[v.pos]? = some (pd (objective ocp) v fun v => x.val v.pos)) ∧
            (∃ g w', evalG (ofOCP env ocp m jl ju) x w = some (g, w') ∧ g.size = nCons (nColloc m) nx nq ncr nce ∧
              ∀ c : NCon (nColloc m) nx nq ncr nce, g.val c.pos = conFn ocp env m (wScaling env m) c fun v => x.val v.pos) ∧
            ∃ V w', jacVal (ofOCP env ocp m jl ju) S.length x w = some (V, w') ∧ V.length = S.length ∧
              ∀ (c : NCon (nColloc m) nx nq ncr nce) (v : NVar (nColloc m) nx nu nq),
                triplet S V c.pos v.pos = pd (conFn ocp env m (wScaling env m) c) v fun v => x.val v.pos := by
  obtain ⟨x0, l0, r1, r2, r3, hx0, hl0, e1, e2, e3⟩ := ref_exists env hm hK hq hd
  have hS := ocp_steady hm hK hq hd hf jl ju hx0 hl0 e1 e2 e3
  obtain ⟨S, nH, a2, a3⟩ := ipopt_first_order hS uh (fun _ => rfl)
  obtain ⟨en, em, vl, -, cl, -⟩ := nlp_layout nx nu nq ncr nce (nColloc m)
  have en' : (ofOCP env ocp m jl ju).n = nVars (nColloc m) nx nu nq := en
  have em' : (ofOCP env ocp m jl ju).m = nCons (nColloc m) nx nq ncr nce := em
  have vl' : ∀ v : NVar (nColloc m) nx nu nq, v.pos < nVars (nColloc m) nx nu nq := fun v => (vl v).trans_eq en
  have cl' : ∀ v : NCon (nColloc m) nx nq ncr nce, v.pos < nCons (nColloc m) nx nq ncr nce := fun v => (cl v).trans_eq em
  rw [en', em'] at a2
  refine ⟨S, nH, a2, fun junk warm hw => ?_⟩
  have hi : Both nx nu nq ncr nce m r1 r2 r3 (Obj.init nx nu nq ncr nce (nColloc m)) := ⟨init_inv _, init_pinv _ _ _ _⟩
  obtain ⟨b1, b2⟩ := a3 _ hi junk warm (by rw [en', em']; exact hw)
  rw [en', em'] at b1 b2
  refine ⟨b1, fun l hl => ?_⟩
  obtain ⟨w, c1, c2, c3⟩ := b2 l hl
  refine ⟨w, c1, c2, fun x hx => ?_⟩
  obtain ⟨d1, ⟨w2, d2⟩, ⟨g, w3, d3, d4, d5⟩, V, w4, d6, d7, d8⟩ := c3 x hx
  refine ⟨d1, ⟨_, w2, d2, by simp, fun v => ?_⟩, ⟨g, w3, d3, d4, fun c => ?_⟩, V, w4, d6, d7, fun c v => ?_⟩
  · rw [List.getElem?_map, List.getElem?_range (vl' v), Option.map_some]
    simp only [ocpM, varAt_pos]
  · rw [d5 _ (cl' c)]
    simp only [ocpM]
    rw [sum_con]
  · rw [d8 _ (cl' c) _ (vl' v)]
    simp only [ocpM, varAt_pos]
    rw [sum_con]

theorem le_foldl_max (l : List ℝ) : ∀ b, (∀ a ∈ l, a ≤ l.foldl max b) ∧ b ≤ l.foldl max b := by
  induction l with
  | nil => simp
  | cons c l ih =>
    intro b
    obtain ⟨h1, h2⟩ := ih (max b c)
    refine ⟨fun a ha => ?_, (le_max_left _ _).trans h2⟩
    rcases List.mem_cons.1 ha with rfl | ha
    · exact (le_max_right _ _).trans h2
    · exact h1 a ha

/-- The scaled weights are at most one. -/
theorem scaled_le_one (env : Mesh.Env ℝ) (m : Mesh ℝ) (i : ℕ) : wScaling env m * wAt env m i ≤ 1 := by
  obtain ⟨h1, h2⟩ := le_foldl_max (allWeights env m) (1 / 1000000)
  have hpos : (0 : ℝ) < (allWeights env m).foldl max (1 / 1000000) := lt_of_lt_of_le (by norm_num) h2
  unfold wScaling
  rw [one_div, inv_mul_le_iff₀ hpos, mul_one]
  unfold wAt
  by_cases hi : i < (allWeights env m).length
  · rw [List.getD_eq_getElem?_getD, List.getElem?_eq_getElem hi, Option.getD_some]
    exact h1 _ (List.getElem_mem hi)
  · rw [List.getD_eq_getElem?_getD, List.getElem?_eq_none (by omega), Option.getD_none]
    exact hpos.le

/-- **C74, feasible set.** The points that satisfy the bounds as Ipopt reads them, for the constraint values that Ipopt is given, are
exactly the feasible points of the collocated problem, as long as no bound reaches `10¹⁹`. -/
theorem ipopt_ocp_feasible (env : Mesh.Env ℝ) {Kmin Kmax : ℕ} (h1 : 1 ≤ Kmin) (m : Mesh ℝ) (hm : Valid Kmin Kmax m)
    (hL : ∀ K, Kmin ≤ K → K ≤ Kmax + 1 → IsLGR env K) (hq : 1 ≤ nq)
    (ocp : OCP ℝ nx nu nq ncr nce) (hd : IsDrOCP ocp) (hf : FixedOCP ocp) (jl ju : ℕ → Ext ℝ)
    (hcr : ∀ k b, (ocp.crl k = .fin b ∨ ocp.cru k = .fin b) → |b| < 10 ^ 19) (hce : ∀ k b, (ocp.cel k = .fin b ∨ ocp.ceu k = .fin b) → |b| < 10 ^ 19) :
    ∃ xl xu gl gu nJ nH, getBounds (ofOCP env ocp m jl ju) = some (xl, xu, gl, gu) ∧
      ∀ (junk : NLPStatus) (warm : Option (NLPSol ℝ)) (_ : ∀ v, warm = some v → Sized (nVars (nColloc m) nx nu nq) (nCons (nColloc m) nx nq ncr nce) v)
        (l : List (CB ℝ)) (_ : ∀ c ∈ l, c.Ok (nVars (nColloc m) nx nu nq) (nCons (nColloc m) nx nq ncr nce) nJ nH true warm.isSome),
        ∃ w, after (ofOCP env ocp m jl ju) (Obj.init nx nu nq ncr nce (nColloc m)) junk warm true l = some w ∧
          ∀ x : Vec ℝ, x.size = nVars (nColloc m) nx nu nq → ∃ g w', evalG (ofOCP env ocp m jl ju) x w = some (g, w') ∧
            (((∀ r < nVars (nColloc m) nx nu nq, lower (readLower (xl.val r)) (x.val r) ∧ upper (readUpper (xu.val r)) (x.val r)) ∧
              ∀ r < nCons (nColloc m) nx nq ncr nce, lower (readLower (gl.val r)) (g.val r) ∧ upper (readUpper (gu.val r)) (g.val r)) ↔
              Feasible ocp env m fun v => x.val v.pos) := by
  have hm' := hm.ne_nil
  have hK : ∀ v ∈ m, 1 ≤ v.K := fun v hv => h1.trans (hm.degree v hv).1
  obtain ⟨xl, xu, gl, gu, e, z1, z2, z3, z4, hbd⟩ := ipopt_bounds (p := ofOCP env ocp m jl ju) ⟨rfl, rfl, rfl, rfl⟩
  obtain ⟨S, nH, -, hS⟩ := ipopt_ocp_first_order env m hm' hK hq ocp hd hf jl ju true
  refine ⟨xl, xu, gl, gu, S.length, nH, e, fun junk warm hw l hl => ?_⟩
  obtain ⟨w, c1, -, c3⟩ := (hS junk warm hw).2 l hl
  refine ⟨w, c1, fun x hx => ?_⟩
  obtain ⟨-, -, ⟨g, w', d1, d2, d3⟩, -⟩ := c3 x hx
  refine ⟨g, w', d1, ?_⟩
  obtain ⟨en, em, vl, vs, cl, cs⟩ := nlp_layout nx nu nq ncr nce (nColloc m)
  obtain ⟨s, s', e1, e2, hfe⟩ := nlp_feasible_iff env h1 m hm hL hq ocp [] (by simp) (.inr hd) x hx jl ju
  rw [← hfe, ← en, ← em]
  obtain ⟨t, t', f1, f2, -, hg⟩ := nlp_constraints env m hm' hK hq ocp [] (by simp) (.inr hd) x hx
  obtain rfl : s = t := Option.some.inj (e1.symm.trans f1)
  obtain rfl : s' = t' := Option.some.inj (e2.symm.trans f2)
  have hgv : ∀ r < numG nx nq ncr nce (nColloc m), g.val r = s'.g.val r := by
    intro r hr
    obtain ⟨c, rfl, -⟩ := cs r hr
    rw [d3 c, hg c]
  have hx1 : ∀ i b, xlower nx nu nq (nColloc m) i = .fin b → |b| < (10 : ℝ) ^ 19 := by
    intro i b h
    have : b = 0 := by
      unfold xlower segSet at h
      split_ifs at h
      exact (Ext.fin.inj h).symm
    rw [this]
    norm_num
  have hx2 : ∀ i b, (xupper i : Ext ℝ) = .fin b → |b| < (10 : ℝ) ^ 19 := fun i b h => by simp [xupper] at h
  refine and_congr (forall₂_congr fun r hr => ?_) (forall₂_congr fun r hr => ?_)
  · exact and_congr ((hbd r _).1 (hx1 r)) ((hbd r _).2.1 (hx2 r))
  · rw [hgv r hr]
    obtain ⟨c, rfl, -⟩ := cs r hr
    have key : ∀ (cr : Fin ncr → Ext ℝ) (ce : Fin nce → Ext ℝ) (j : ℕ → Ext ℝ), (∀ k b, cr k = .fin b → |b| < (10 : ℝ) ^ 19) →
        (∀ k b, ce k = .fin b → |b| < (10 : ℝ) ^ 19) → ∀ b, conBounds env m nx nq cr ce j c.pos = .fin b → |b| < (10 : ℝ) ^ 19 := by
      intro cr ce j k1 k2 b h
      rw [conBounds_at] at h
      cases c with
      | dyn i k => rw [← Ext.fin.inj h]; norm_num
      | int k => rw [← Ext.fin.inj h]; norm_num
      | ce k => exact k2 k b h
      | cr i k =>
        cases hk : cr k with
        | neg => simp [hk, Ext.scale] at h
        | pos => simp [hk, Ext.scale] at h
        | fin a =>
          simp only [hk, Ext.scale] at h
          rw [← Ext.fin.inj h, abs_mul, abs_of_pos (mul_pos (wScaling_pos env m) (wAt_pos env hm hL i))]
          exact (mul_le_of_le_one_left (abs_nonneg a) (scaled_le_one env m i)).trans_lt (k1 k a hk)
    exact and_congr ((hbd _ _).2.2.1 (key _ _ jl (fun k b h => hcr k b (.inl h)) fun k b h => hce k b (.inl h)))
      ((hbd _ _).2.2.2 (key _ _ ju (fun k b h => hcr k b (.inr h)) fun k b h => hce k b (.inr h)))

/-! ### An instance -/

theorem drOf_fixed {nf : ℕ} (f : (Arg nx nu → ℝ) → Fin nf → ℝ) : FixedFn (drOf f) :=
  ⟨fun _ _ => ⟨rfl, rfl, fun i j => by simp only [drOf, dense, pat]; split_ifs <;> rfl⟩,
    fun _ _ => ⟨rfl, rfl, fun i j => by simp only [drOf, dense, pat]; split_ifs <;> rfl⟩⟩

theorem drE_fixed {n : ℕ} (f : (EArg nx nq → ℝ) → Fin n → ℝ) : FixedEFn (drE f) :=
  ⟨fun _ _ => ⟨rfl, rfl, fun i j => by simp only [drE, dense, pat]; split_ifs <;> rfl⟩,
    fun _ _ => ⟨rfl, rfl, fun i j => by simp only [drE, dense, pat]; split_ifs <;> rfl⟩⟩

theorem exOCP'_fixed : FixedOCP exOCP' := ⟨drE_fixed _, drOf_fixed _, drOf_fixed _, drOf_fixed _, drE_fixed _⟩

theorem exOCP'_theta : Separates exOCP'.theta := by
  intro p j k i
  obtain rfl : k = 0 := Subsingleton.elim _ _
  have : pd (fun p => exOCP'.theta.val p j) (.q 0) = fun _ => 1 := funext fun p => by
    change pd (fun p : EArg 1 1 → ℝ => p (.q 0) + p (.xf 0) * p (.xf 0)) (.q 0) p = 1
    rw [pd_add (f := fun p : EArg 1 1 → ℝ => p (.q 0)) (g := fun p => p (.xf 0) * p (.xf 0)) (by fun_prop) (by fun_prop),
      pd_mul (f := fun p : EArg 1 1 → ℝ => p (.xf 0)) (g := fun p => p (.xf 0)) (by fun_prop) (by fun_prop), pd_coord, pd_coord]
    simp
  rw [this]
  exact ⟨pd_const _ _ _, pd_const _ _ _⟩

theorem exOCP'_ce : Separates exOCP'.ce := by
  intro p j k i
  obtain rfl : k = 0 := Subsingleton.elim _ _
  have : pd (fun p => exOCP'.ce.val p j) (.q 0) = fun _ => 0 := funext fun p => by
    change pd (fun p : EArg 1 1 → ℝ => p (.x0 0)) (.q 0) p = 0
    rw [pd_coord]; simp
  rw [this]
  exact ⟨pd_const _ _ _, pd_const _ _ _⟩

/-- The hypotheses are met: minimise `q + x(tf)²`. -/
example := nlp_pattern (lowEnv ℝ) exMesh exMesh_ne exMesh_K le_rfl exOCP' exOCP'_dr exOCP'_fixed
example := ipopt_ocp_hessian (lowEnv ℝ) exMesh exMesh_ne exMesh_K le_rfl exOCP' exOCP'_dr exOCP'_fixed exOCP'_theta exOCP'_ce
  (fun _ => .neg) (fun _ => .pos)
example := ipopt_ocp_first_order (lowEnv ℝ) exMesh exMesh_ne exMesh_K le_rfl exOCP' exOCP'_dr exOCP'_fixed (fun _ => .neg) (fun _ => .pos) false
example := ipopt_ocp_feasible (lowEnv ℝ) le_rfl exMesh exMesh_valid lowEnv_lgr le_rfl exOCP' exOCP'_dr exOCP'_fixed (fun _ => .neg) (fun _ => .pos)
  (by rintro k b (h | h) <;> rw [← Ext.fin.inj h] <;> norm_num) (by rintro k b (h | h) <;> rw [← Ext.fin.inj h] <;> norm_num)

/-- In this problem the Hessian entry at the final state is `2 σ`: the constraints are affine there. -/
example (jl ju : ℕ → Ext ℝ) (x : Vec ℝ) (hx : x.size = nVars (nColloc exMesh) 1 1 1) :
    ∃ S nJ, S.Nodup ∧ ∃ w V w', after (ofOCP (lowEnv ℝ) exOCP' exMesh jl ju) (Obj.init 1 1 1 1 1 (nColloc exMesh)) .unknown none true
        [.hessS S.length, .gradF x, .jacV nJ x] = some w ∧
      hessVal (ofOCP (lowEnv ℝ) exOCP' exMesh jl ju) true S.length x 3 ⟨nCons (nColloc exMesh) 1 1 1 1, fun _ => 0⟩ w = some (V, w') ∧
      symmetric S V (NVar.x (Fin.last _) 0 : NVar (nColloc exMesh) 1 1 1).pos (NVar.x (Fin.last _) 0 : NVar (nColloc exMesh) 1 1 1).pos = 6 := by
  obtain ⟨S, nJ, h1, -, h2⟩ := ipopt_ocp_hessian (lowEnv ℝ) exMesh exMesh_ne exMesh_K le_rfl exOCP' exOCP'_dr exOCP'_fixed exOCP'_theta exOCP'_ce jl ju
  refine ⟨S, nJ, h1, ?_⟩
  obtain ⟨w, a1, -, a2⟩ := (h2 .unknown none (by simp)).2 [.hessS S.length, .gradF x, .jacV nJ x] (by
    intro c hc
    simp only [List.mem_cons, List.not_mem_nil, or_false] at hc
    rcases hc with rfl | rfl | rfl
    · exact ⟨rfl, rfl⟩
    · exact hx
    · exact ⟨rfl, hx⟩)
  obtain ⟨V, w', b1, -, b2⟩ := a2 x 3 ⟨nCons (nColloc exMesh) 1 1 1 1, fun _ => 0⟩ hx rfl
  refine ⟨w, V, w', a1, b1, ?_⟩
  rw [b2]
  simp only [zero_mul, Finset.sum_const_zero, add_zero]
  have h1 : pd (fun z => 3 * objective (N := nColloc exMesh) exOCP' z) (.x (Fin.last _) 0) = fun z => 6 * z (.x (Fin.last _) 0) := by
    funext z
    change pd (fun z : NVar (nColloc exMesh) 1 1 1 → ℝ => 3 * (z (.q 0) + z (.x (Fin.last _) 0) * z (.x (Fin.last _) 0))) (.x (Fin.last _) 0) z = _
    rw [pd_const_mul (f := fun z : NVar (nColloc exMesh) 1 1 1 → ℝ => z (.q 0) + z (.x (Fin.last _) 0) * z (.x (Fin.last _) 0)) _ (by fun_prop),
      pd_add (f := fun z : NVar (nColloc exMesh) 1 1 1 → ℝ => z (.q 0)) (g := fun z => z (.x (Fin.last _) 0) * z (.x (Fin.last _) 0))
        (by fun_prop) (by fun_prop),
      pd_mul (f := fun z : NVar (nColloc exMesh) 1 1 1 → ℝ => z (.x (Fin.last _) 0)) (g := fun z => z (.x (Fin.last _) 0)) (by fun_prop)
        (by fun_prop), pd_coord, pd_coord]
    simp
    ring
  rw [h1, pd_const_mul (f := fun z : NVar (nColloc exMesh) 1 1 1 → ℝ => z (.x (Fin.last _) 0)) _ (by fun_prop), pd_coord]
  simp

end Verif.Ipopt
