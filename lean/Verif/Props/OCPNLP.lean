import Verif.Proofs.OCPNLPBounds

/-! # The nonlinear program of an optimal control problem (C28, C29, C30) -/

set_option linter.unusedSectionVars false

namespace Verif.NLP

open Verif.Mesh Verif.Sparse Verif.MeshFn Verif.QP Verif.QPSpec

variable {nx nu nq ncr nce : ℕ}

/-! ## C28 -/

/-- **C28, layout.** The segments of the variables and of the constraints tile the vectors: every position belongs to exactly one
variable (constraint), and the lengths are those of the specification. -/
theorem nlp_layout (nx nu nq ncr nce N : ℕ) :
    numX nx nu nq N = nVars N nx nu nq ∧ numG nx nq ncr nce N = nCons N nx nq ncr nce ∧
    (∀ v : NVar N nx nu nq, v.pos < numX nx nu nq N) ∧ (∀ r < numX nx nu nq N, ∃! v : NVar N nx nu nq, v.pos = r) ∧
    (∀ c : NCon N nx nq ncr nce, c.pos < numG nx nq ncr nce N) ∧
    (∀ r < numG nx nq ncr nce N, ∃! c : NCon N nx nq ncr nce, c.pos = r) := by
  have e := (begs nx nu nq N).2.2.2.2
  have e' := (cbegs nx nq ncr nce N).2.2.2.2
  rw [e, e']
  refine ⟨rfl, rfl, NVar.pos_lt, fun r hr => ?_, NCon.pos_lt, fun r hr => ?_⟩
  · obtain ⟨v, hv⟩ := NVar.pos_surj hr
    exact ⟨v, hv, fun w hw => NVar.pos_inj (hw.trans hv.symm)⟩
  · obtain ⟨v, hv⟩ := NCon.pos_surj hr
    exact ⟨v, hv, fun w hw => NCon.pos_inj (hw.trans hv.symm)⟩

/-- **C28, values.** After any history of calls with vectors of the right size, `g(x)` returns the constraint functions, in their
positions. Only histories with derivatives need smooth functions. -/
theorem nlp_constraints (env : Mesh.Env ℝ) (m : Mesh ℝ) (hm : m ≠ []) (hK : ∀ v ∈ m, 1 ≤ v.K) (hq : 1 ≤ nq)
    (ocp : OCP ℝ nx nu nq ncr nce) (l : List Call)
    (hl : ∀ c ∈ l, c.Ok (nVars (nColloc m) nx nu nq) (nCons (nColloc m) nx nq ncr nce))
    (hd : (∀ c ∈ l, ∃ x, c = .g x) ∨ IsDrOCP ocp) (x : Vec ℝ) (hx : x.size = nVars (nColloc m) nx nu nq) :
    ∃ s s', history env ocp m l = some s ∧ Obj.geval env ocp m x s = some s' ∧ s'.g.size = nCons (nColloc m) nx nq ncr nce ∧
      ∀ c, s'.g.val c.pos = conFn ocp env m (wScaling env m) c fun v => x.val v.pos := by
  obtain ⟨s, e, hs⟩ := history_inv env m hm hK hq ocp l hl hd
  obtain ⟨s', e', hs', h⟩ := geval_spec env m hm hK ocp (IsVec.of_size hx) hs
  exact ⟨s, s', e, e', hs'.g, h⟩

/-- **C28, objective.** -/
theorem nlp_objective (ocp : OCP ℝ nx nu nq ncr nce) (m : Mesh ℝ) (x : Vec ℝ) (hx : x.size = nVars (nColloc m) nx nu nq) :
    Obj.f ocp m x = some (objective ocp fun v : NVar (nColloc m) nx nu nq => x.val v.pos) := by
  unfold Obj.f
  simp only
  rw [if_pos (by rw [(begs nx nu nq (nColloc m)).2.2.2.2]; exact hx), endArgs_eq (IsVec.of_size hx)]
  rfl

/-- **C28.** On a mesh of LGR intervals, after any history of calls: `x` and `g(x)` lie between the bounds of the program if and
only if `x` is feasible for the discretised problem: nonnegative final time, collocation equations, integrals equal to the
quadrature, running constraints at every collocation point and end constraints. `jl`, `ju` are the contents of the bound vectors
before they are filled. -/
theorem nlp_feasible_iff (env : Mesh.Env ℝ) {Kmin Kmax : ℕ} (h1 : 1 ≤ Kmin) (m : Mesh ℝ) (hm : Valid Kmin Kmax m)
    (hL : ∀ K, Kmin ≤ K → K ≤ Kmax + 1 → IsLGR env K) (hq : 1 ≤ nq) (ocp : OCP ℝ nx nu nq ncr nce) (l : List Call)
    (hl : ∀ c ∈ l, c.Ok (nVars (nColloc m) nx nu nq) (nCons (nColloc m) nx nq ncr nce))
    (hd : (∀ c ∈ l, ∃ x, c = .g x) ∨ IsDrOCP ocp) (x : Vec ℝ) (hx : x.size = nVars (nColloc m) nx nu nq) (jl ju : ℕ → Ext ℝ) :
    ∃ s s', history env ocp m l = some s ∧ Obj.geval env ocp m x s = some s' ∧
      ((∀ r < numX nx nu nq (nColloc m),
          lower (xlower nx nu nq (nColloc m) r) (x.val r) ∧ upper (xupper r) (x.val r)) ∧
        (∀ r < numG nx nq ncr nce (nColloc m),
          lower (conBounds env m nx nq ocp.crl ocp.cel jl r) (s'.g.val r) ∧
          upper (conBounds env m nx nq ocp.cru ocp.ceu ju r) (s'.g.val r)) ↔
      Feasible ocp env m fun v => x.val v.pos) := by
  obtain ⟨s, s', e, e', -, hg⟩ := nlp_constraints env m hm.ne_nil (fun v hv => h1.trans (hm.degree v hv).1) hq ocp l hl hd x hx
  refine ⟨s, s', e, e', ?_⟩
  obtain ⟨en, em, vl, vs, cl, cs⟩ := nlp_layout nx nu nq ncr nce (nColloc m)
  have hvar : (∀ r < numX nx nu nq (nColloc m), lower (xlower nx nu nq (nColloc m) r) (x.val r) ∧ upper (xupper r) (x.val r)) ↔
      ∀ v : NVar (nColloc m) nx nu nq, lower (xlower nx nu nq (nColloc m) v.pos) (x.val v.pos) ∧ upper (xupper v.pos) (x.val v.pos) :=
    ⟨fun h v => h _ (vl v), fun h r hr => by obtain ⟨v, rfl, -⟩ := vs r hr; exact h v⟩
  have hcon : (∀ r < numG nx nq ncr nce (nColloc m), lower (conBounds env m nx nq ocp.crl ocp.cel jl r) (s'.g.val r) ∧
        upper (conBounds env m nx nq ocp.cru ocp.ceu ju r) (s'.g.val r)) ↔
      ∀ c : NCon (nColloc m) nx nq ncr nce, lower (conBounds env m nx nq ocp.crl ocp.cel jl c.pos) (s'.g.val c.pos) ∧
        upper (conBounds env m nx nq ocp.cru ocp.ceu ju c.pos) (s'.g.val c.pos) :=
    ⟨fun h v => h _ (cl v), fun h r hr => by obtain ⟨v, rfl, -⟩ := cs r hr; exact h v⟩
  rw [hvar, hcon]
  simp only [hg, conBounds_at, xlower_at]
  have hws := wScaling_pos env m
  have hw := wAt_pos env hm hL
  have eq0 : ∀ a : ℝ, (lower (.fin 0) a ∧ upper (.fin 0) a) ↔ a = 0 := fun a =>
    ⟨fun h => le_antisymm h.2 h.1, fun h => by subst h; exact ⟨le_refl (0 : ℝ), le_refl (0 : ℝ)⟩⟩
  have hdyn : ∀ (i : Fin (nColloc m)) (k : Fin nx), conFn ocp env m (wScaling env m) (.dyn i k) (fun v => x.val v.pos) = 0 ↔ _ := fun i k => by
    simp only [conFn, dynSpec]
    rw [mul_eq_zero_iff_left hws.ne', mul_eq_zero_iff_left (hw i).ne', sub_eq_zero, eq_comm, nodePt_onMesh]
  have hco : ∀ k : Fin nx, coordAt (onMesh fun v : NVar (nColloc m) nx nu nq => x.val v.pos) k =
      fun l => if h : l < nColloc m + 1 then x.val (NVar.x (nu := nu) (nq := nq) ⟨l, h⟩ k).pos else 0 := fun k => rfl
  have hint : ∀ (k : Fin nq), conFn ocp env m (wScaling env m) (.int k) (fun v => x.val v.pos) = 0 ↔ _ := fun k => by
    simp only [conFn, integralSpec]
    rw [mul_eq_zero_iff_left hws.ne', sub_eq_zero, eq_comm]
  have hcr : ∀ (i : Fin (nColloc m)) (k : Fin ncr),
      conFn ocp env m (wScaling env m) (.cr i k) (fun v => x.val v.pos) = (wScaling env m * wAt env m i) * _ := fun i k => by
    simp only [conFn, evalSpec, if_true]
    rw [nodePt_onMesh, ← mul_assoc]
  constructor
  · rintro ⟨hv, hc⟩
    refine ⟨(hv .tf).1, fun i k => ?_, fun k => ?_, fun i k => ?_, fun k => hc (.ce k)⟩
    · have := (hdyn i k).1 ((eq0 _).1 (hc (.dyn i k)))
      simpa only [hco, nodePt_onMesh, onMesh, sub_zero] using this
    · have := (hint k).1 ((eq0 _).1 (hc (.int k)))
      simpa only [hco, nodePt_onMesh, onMesh, sub_zero] using this
    · have := hc (.cr i k)
      simp only [hcr] at this
      rwa [lower_scale (mul_pos hws (hw i)), upper_scale (mul_pos hws (hw i))] at this
  · intro h
    refine ⟨fun v => ⟨?_, trivial⟩, fun c => ?_⟩
    · cases v with
      | tf => exact h.time
      | _ => trivial
    · cases c with
      | dyn i k =>
        refine (eq0 _).2 ((hdyn i k).2 ?_)
        simpa only [hco, nodePt_onMesh, onMesh, sub_zero] using h.dynamics i k
      | int k =>
        refine (eq0 _).2 ((hint k).2 ?_)
        simpa only [hco, nodePt_onMesh, onMesh, sub_zero] using h.integrals k
      | cr i k =>
        simp only [hcr]
        rw [lower_scale (mul_pos hws (hw i)), upper_scale (mul_pos hws (hw i))]
        exact h.running i k
      | ce k => exact h.endpoint k

/-! ## C29 -/

/-- **C29, objective.** After any history of calls `df_dx(x)` returns the partial derivatives of the objective. -/
theorem nlp_df_exact (env : Mesh.Env ℝ) (m : Mesh ℝ) (hm : m ≠ []) (hK : ∀ v ∈ m, 1 ≤ v.K) (hq : 1 ≤ nq)
    (ocp : OCP ℝ nx nu nq ncr nce) (hd : IsDrOCP ocp) (l : List Call)
    (hl : ∀ c ∈ l, c.Ok (nVars (nColloc m) nx nu nq) (nCons (nColloc m) nx nq ncr nce))
    (x : Vec ℝ) (hx : x.size = nVars (nColloc m) nx nu nq) :
    ∃ s s', history env ocp m l = some s ∧ Obj.dfdx ocp m x s = some s' ∧
      s'.df.rows = 1 ∧ s'.df.cols = nVars (nColloc m) nx nu nq ∧
      ∀ v : NVar (nColloc m) nx nu nq, s'.df.val 0 v.pos = pd (objective ocp) v fun v => x.val v.pos := by
  obtain ⟨s, e, hs⟩ := history_inv env m hm hK hq ocp l hl (.inr hd)
  obtain ⟨s', e', hs', h⟩ := dfdx_spec m (nColloc_pos hm hK) ocp hd.theta (IsVec.of_size hx) hs
  exact ⟨s, s', e, e', hs'.df.1, hs'.df.2, h⟩

/-- **C29, constraints.** After any history of calls `dg_dx(x)` returns the partial derivatives of the constraint functions. -/
theorem nlp_dg_exact (env : Mesh.Env ℝ) (m : Mesh ℝ) (hm : m ≠ []) (hK : ∀ v ∈ m, 1 ≤ v.K) (hq : 1 ≤ nq)
    (ocp : OCP ℝ nx nu nq ncr nce) (hd : IsDrOCP ocp) (l : List Call)
    (hl : ∀ c ∈ l, c.Ok (nVars (nColloc m) nx nu nq) (nCons (nColloc m) nx nq ncr nce))
    (x : Vec ℝ) (hx : x.size = nVars (nColloc m) nx nu nq) :
    ∃ s s', history env ocp m l = some s ∧ Obj.dgdx env ocp m x s = some s' ∧
      s'.dg.rows = nCons (nColloc m) nx nq ncr nce ∧ s'.dg.cols = nVars (nColloc m) nx nu nq ∧
      ∀ (c : NCon (nColloc m) nx nq ncr nce) (v : NVar (nColloc m) nx nu nq),
        s'.dg.val c.pos v.pos = pd (conFn ocp env m (wScaling env m) c) v fun v => x.val v.pos := by
  obtain ⟨s, e, hs⟩ := history_inv env m hm hK hq ocp l hl (.inr hd)
  obtain ⟨s', e', hs', h⟩ := dgdx_spec env m hm hK ocp hd (IsVec.of_size hx) hs
  exact ⟨s, s', e, e', hs'.dg.1, hs'.dg.2, h⟩

/-! ## C30 -/

/-- A second derivative by an integral variable and a state. -/
def Mixed {N : ℕ} (v w : NVar N nx nu nq) : Prop := ∃ k i j, v = .q k ∧ w = .x i j

theorem mixed_iff {N : ℕ} (v w : NVar N nx nu nq) : mixed v w ↔ Mixed v w := by
  constructor
  · intro h
    cases v with
    | q k =>
      cases w with
      | x i j => exact ⟨k, i, j, rfl, rfl⟩
      | _ => simp [mixed] at h
    | _ => simp [mixed] at h
  · rintro ⟨k, i, j, rfl, rfl⟩; trivial

/-- **C30, objective (partial).** After any history of calls the entries of `d2f_dx2(x)` on and above the diagonal are the second
partial derivatives of the objective, except those by an integral variable and a state, which are zero; below the diagonal all
entries are zero. Missing for the full claim: the exception; it is a real one, see `nlp_d2f_wrong`. -/
theorem nlp_d2f_exact_partial (env : Mesh.Env ℝ) (m : Mesh ℝ) (hm : m ≠ []) (hK : ∀ v ∈ m, 1 ≤ v.K) (hq : 1 ≤ nq)
    (ocp : OCP ℝ nx nu nq ncr nce) (hd : IsDrOCP ocp) (l : List Call)
    (hl : ∀ c ∈ l, c.Ok (nVars (nColloc m) nx nu nq) (nCons (nColloc m) nx nq ncr nce))
    (x : Vec ℝ) (hx : x.size = nVars (nColloc m) nx nu nq) :
    ∃ s s', history env ocp m l = some s ∧ Obj.d2fdx2 ocp m x s = some s' ∧
      s'.d2f.rows = nVars (nColloc m) nx nu nq ∧ s'.d2f.cols = nVars (nColloc m) nx nu nq ∧
      (∀ v w : NVar (nColloc m) nx nu nq, v.pos ≤ w.pos → ¬ Mixed v w →
        s'.d2f.val v.pos w.pos = pd (pd (objective ocp) v) w fun v => x.val v.pos) ∧
      (∀ v w : NVar (nColloc m) nx nu nq, w.pos < v.pos ∨ Mixed v w → s'.d2f.val v.pos w.pos = 0) := by
  obtain ⟨s, e, hs⟩ := history_inv env m hm hK hq ocp l hl (.inr hd)
  obtain ⟨s', e', hs', h⟩ := d2fdx2_spec m (nColloc_pos hm hK) ocp hd.theta (IsVec.of_size hx) hs
  refine ⟨s, s', e, e', hs'.d2f.1, hs'.d2f.2, fun v w h1 h2 => ?_, fun v w h1 => ?_⟩
  · rw [h, if_pos ⟨h1, fun h => h2 ((mixed_iff v w).1 h)⟩]
  · rw [h, if_neg]
    rintro ⟨h2, h3⟩
    rcases h1 with h1 | h1
    · omega
    · exact h3 ((mixed_iff v w).2 h1)

/-- **C30, constraints (partial).** The same for `d2g_dx2(x, λ)` and the second derivatives of `Σ_c λ_c g_c`. -/
theorem nlp_d2g_exact_partial (env : Mesh.Env ℝ) (m : Mesh ℝ) (hm : m ≠ []) (hK : ∀ v ∈ m, 1 ≤ v.K) (hq : 1 ≤ nq)
    (ocp : OCP ℝ nx nu nq ncr nce) (hd : IsDrOCP ocp) (l : List Call)
    (hl : ∀ c ∈ l, c.Ok (nVars (nColloc m) nx nu nq) (nCons (nColloc m) nx nq ncr nce))
    (x lambda : Vec ℝ) (hx : x.size = nVars (nColloc m) nx nu nq) (hlam : lambda.size = nCons (nColloc m) nx nq ncr nce) :
    ∃ s s', history env ocp m l = some s ∧ Obj.d2gdx2 env ocp m x lambda s = some s' ∧
      s'.d2g.rows = nVars (nColloc m) nx nu nq ∧ s'.d2g.cols = nVars (nColloc m) nx nu nq ∧
      (∀ v w : NVar (nColloc m) nx nu nq, v.pos ≤ w.pos → ¬ Mixed v w →
        s'.d2g.val v.pos w.pos = pd (pd (fun z => ∑ c : NCon (nColloc m) nx nq ncr nce,
          lambda.val c.pos * conFn ocp env m (wScaling env m) c z) v) w fun v => x.val v.pos) ∧
      (∀ v w : NVar (nColloc m) nx nu nq, w.pos < v.pos ∨ Mixed v w → s'.d2g.val v.pos w.pos = 0) := by
  obtain ⟨s, e, hs⟩ := history_inv env m hm hK hq ocp l hl (.inr hd)
  obtain ⟨s', e', hs', h⟩ := d2gdx2_spec env m hm hK hq ocp hd (IsVec.of_size hx) hlam hs
  refine ⟨s, s', e, e', hs'.d2g.1, hs'.d2g.2, fun v w h1 h2 => ?_, fun v w h1 => ?_⟩
  · rw [h, if_pos ⟨h1, fun h => h2 ((mixed_iff v w).1 h)⟩]
    rfl
  · rw [h, if_neg]
    rintro ⟨h2, h3⟩
    rcases h1 with h1 | h1
    · omega
    · exact h3 ((mixed_iff v w).2 h1)

/-- A function of the end points without second derivatives by integrals and states. -/
def Separates {n : ℕ} (fn : EFn ℝ nx nq n) : Prop := ∀ p (j : Fin n) (k : Fin nq) (i : Fin nx),
  pd (pd (fun p => fn.val p j) (.q k)) (.x0 i) p = 0 ∧ pd (pd (fun p => fn.val p j) (.q k)) (.xf i) p = 0

theorem pd_pd_mixed {N n : ℕ} (fn : EFn ℝ nx nq n) (hd : IsDrE fn) (hs : Separates fn) (j : Fin n) {v w : NVar N nx nu nq}
    (h : Mixed v w) (z : NVar N nx nu nq → ℝ) : pd (pd (fun z => fn.val (ends z) j) v) w z = 0 := by
  obtain ⟨k, i, b, rfl, rfl⟩ := h
  rw [pd_pd_ends (hd.smooth j)]
  simp [pullE, hs _ j k b]

/-- **C30, when the exception does not matter.** For problems whose objective and end constraints have no mixed second derivatives
by integrals and states — for instance those where the integrals enter additively — the matrices are exactly the upper triangles
of the Hessians. -/
theorem nlp_hessians_exact (env : Mesh.Env ℝ) (m : Mesh ℝ) (hm : m ≠ []) (hK : ∀ v ∈ m, 1 ≤ v.K) (hq : 1 ≤ nq)
    (ocp : OCP ℝ nx nu nq ncr nce) (hd : IsDrOCP ocp) (ht : Separates ocp.theta) (hc : Separates ocp.ce) (l : List Call)
    (hl : ∀ c ∈ l, c.Ok (nVars (nColloc m) nx nu nq) (nCons (nColloc m) nx nq ncr nce))
    (x lambda : Vec ℝ) (hx : x.size = nVars (nColloc m) nx nu nq) (hlam : lambda.size = nCons (nColloc m) nx nq ncr nce) :
    ∃ s s' s'', history env ocp m l = some s ∧ Obj.d2fdx2 ocp m x s = some s' ∧ Obj.d2gdx2 env ocp m x lambda s = some s'' ∧
      ∀ v w : NVar (nColloc m) nx nu nq,
        (s'.d2f.val v.pos w.pos = if v.pos ≤ w.pos then pd (pd (objective ocp) v) w fun v => x.val v.pos else 0) ∧
        s''.d2g.val v.pos w.pos = if v.pos ≤ w.pos then pd (pd (fun z => ∑ c : NCon (nColloc m) nx nq ncr nce,
          lambda.val c.pos * conFn ocp env m (wScaling env m) c z) v) w fun v => x.val v.pos else 0 := by
  obtain ⟨s, s', e, e', -, -, hf, hf0⟩ := nlp_d2f_exact_partial env m hm hK hq ocp hd l hl x hx
  obtain ⟨s1, s'', e1, e'', -, -, hg, hg0⟩ := nlp_d2g_exact_partial env m hm hK hq ocp hd l hl x lambda hx hlam
  have : s1 = s := by rw [e] at e1; exact (Option.some.inj e1).symm
  subst this
  refine ⟨s1, s', s'', e, e', e'', fun v w => ?_⟩
  by_cases hle : v.pos ≤ w.pos
  · rw [if_pos hle, if_pos hle]
    by_cases hmix : Mixed v w
    · rw [hf0 v w (.inr hmix), hg0 v w (.inr hmix)]
      refine ⟨(pd_pd_mixed _ hd.theta ht 0 hmix _).symm, ?_⟩
      have hcd := conFn_contDiff env m ocp hd (wScaling env m)
      rw [pd_pd_sum (fun c _ => contDiff_const.mul (hcd c))]
      symm
      refine Finset.sum_eq_zero fun c _ => ?_
      rw [pd_pd_const_mul (hcd c)]
      have hmesh : ∀ {G : (Var (nColloc m) nx nu → ℝ) → ℝ}, ContDiff ℝ 2 G →
          pd (pd (fun z : NVar (nColloc m) nx nu nq → ℝ => G (onMesh z)) v) w (fun v => x.val v.pos) = 0 := fun hG => by
        rw [pd_pd_mesh hG]
        obtain ⟨k, i, b, rfl, rfl⟩ := hmix
        rfl
      have hmc : ∀ {G : (Var (nColloc m) nx nu → ℝ) → ℝ}, ContDiff ℝ 2 G →
          ContDiff ℝ 2 fun z : NVar (nColloc m) nx nu nq → ℝ => G (onMesh z) := fun hG => hG.comp onMesh_contDiff'
      cases c with
      | dyn i k =>
        have h1 := dynSpec_contDiff hd.f env m i k
        have : pd (pd (conFn ocp env m (wScaling env m) (.dyn i k)) v) w (fun v => x.val v.pos) = 0 := by
          refine (pd_pd_const_mul (hmc h1) _ _ _ _).trans ?_
          rw [hmesh h1, mul_zero]
        rw [this, mul_zero]
      | int k =>
        have h1 := integralSpec_contDiff hd.g env m k
        have hx : ContDiff ℝ 2 fun z : NVar (nColloc m) nx nu nq → ℝ => z (.q k) := by fun_prop
        have : pd (pd (conFn ocp env m (wScaling env m) (.int k)) v) w (fun v => x.val v.pos) = 0 := by
          refine (pd_pd_const_mul ((hmc h1).sub hx) _ _ _ _).trans ?_
          rw [pd_pd_sub (hmc h1) hx, hmesh h1, pd_pd_coord, sub_zero, mul_zero]
        rw [this, mul_zero]
      | cr i k =>
        have h1 := evalSpec_contDiff hd.cr env m true i k
        have : pd (pd (conFn ocp env m (wScaling env m) (.cr i k)) v) w (fun v => x.val v.pos) = 0 := by
          refine (pd_pd_const_mul (hmc h1) _ _ _ _).trans ?_
          rw [hmesh h1, mul_zero]
        rw [this, mul_zero]
      | ce k =>
        have : pd (pd (conFn ocp env m (wScaling env m) (.ce k)) v) w (fun v => x.val v.pos) = 0 :=
          pd_pd_mixed _ hd.ce hc k hmix _
        rw [this, mul_zero]
    · exact ⟨hf v w hle hmix, hg v w hle hmix⟩
  · rw [if_neg hle, if_neg hle]
    exact ⟨hf0 v w (.inl (by omega)), hg0 v w (.inl (by omega))⟩

end Verif.NLP
