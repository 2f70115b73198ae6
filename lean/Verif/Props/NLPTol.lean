import Verif.Spec.NLPTol
import Verif.Props.OCPNLP
import Verif.Props.OCPNLPExamples

/-! # What a tolerance on the nonlinear program means for the optimal control problem (C138) -/

set_option linter.unusedSectionVars false

namespace Verif.NLP

open Verif.Mesh Verif.Sparse Verif.MeshFn Verif.QP Verif.QPSpec

variable {nx nu nq ncr nce : ℕ}

theorem foldl_max_mem (l : List ℝ) (a : ℝ) : (∀ b ∈ l, b ≤ l.foldl max a) ∧ (l.foldl max a = a ∨ l.foldl max a ∈ l) := by
  induction l generalizing a with
  | nil => simp
  | cons c l ih =>
    obtain ⟨h1, h2⟩ := ih (max a c)
    rw [List.foldl_cons]
    refine ⟨fun b hb => ?_, ?_⟩
    · rcases List.mem_cons.1 hb with rfl | hb
      · exact (le_max_right a b).trans (foldl_max_le l _)
      · exact h1 b hb
    · rcases h2 with h2 | h2
      · rcases max_choice a c with h | h
        · exact .inl (h2.trans h)
        · exact .inr (List.mem_cons.2 (.inl (h2.trans h)))
      · exact .inr (List.mem_cons_of_mem _ h2)

theorem Top.unique {env : Mesh.Env ℝ} {m : Mesh ℝ} {V W : ℝ} (hV : Top env m V) (hW : Top env m W) : V = W := by
  have key : ∀ {V W : ℝ}, Top env m V → Top env m W → V ≤ W := by
    intro V W hV hW
    rcases hV.attained with h | h
    · rw [h]; exact hW.floor
    · exact hW.above V h
  exact le_antisymm (key hV hW) (key hW hV)

/-- The scale of the program is one over the largest weight. -/
theorem wScaling_top (env : Mesh.Env ℝ) (m : Mesh ℝ) : Top env m (1 / wScaling env m) := by
  obtain ⟨h1, h2⟩ := foldl_max_mem (allWeights env m) (1 / 1000000)
  have h3 := foldl_max_le (allWeights env m) (1 / 1000000)
  unfold wScaling
  rw [one_div_one_div]
  exact ⟨h3, h1, h2⟩

theorem lower_scale_add {s : ℝ} (hs : 0 < s) (e : Ext ℝ) (a ε : ℝ) : lower (Ext.scale s e) (s * a + ε) ↔ lower e (a + ε * (1 / s)) := by
  rw [← lower_scale hs e, mul_add, show s * (ε * (1 / s)) = ε by field_simp]

theorem upper_scale_sub {s : ℝ} (hs : 0 < s) (e : Ext ℝ) (a ε : ℝ) : upper (Ext.scale s e) (s * a - ε) ↔ upper e (a - ε * (1 / s)) := by
  rw [← upper_scale hs e, mul_sub, show s * (ε * (1 / s)) = ε by field_simp]

/-- **C138.** On a mesh of LGR intervals, after any history of calls: `x` and `g(x)` lie between the bounds of the program up to `ε` if and only if the equations of motion and the running
constraints hold at every collocation point up to `ε W / w`, where `w` is the weight of the point and `W` the largest weight, the integrals up to `ε W`, and the final time and the end
constraints up to `ε`. -/
theorem nlp_tolerance_iff (env : Mesh.Env ℝ) {Kmin Kmax : ℕ} (h1 : 1 ≤ Kmin) (m : Mesh ℝ) (hm : Valid Kmin Kmax m)
    (hL : ∀ K, Kmin ≤ K → K ≤ Kmax + 1 → IsLGR env K) (hq : 1 ≤ nq) (ocp : OCP ℝ nx nu nq ncr nce) (l : List Call)
    (hl : ∀ c ∈ l, c.Ok (nVars (nColloc m) nx nu nq) (nCons (nColloc m) nx nq ncr nce))
    (hd : (∀ c ∈ l, ∃ x, c = .g x) ∨ IsDrOCP ocp) (x : Vec ℝ) (hx : x.size = nVars (nColloc m) nx nu nq) (jl ju : ℕ → Ext ℝ) (ε : ℝ)
    {W : ℝ} (hT : Top env m W) :
    ∃ s s', history env ocp m l = some s ∧ Obj.geval env ocp m x s = some s' ∧
      ((∀ r < numX nx nu nq (nColloc m),
          lower (xlower nx nu nq (nColloc m) r) (x.val r + ε) ∧ upper (xupper r) (x.val r - ε)) ∧
        (∀ r < numG nx nq ncr nce (nColloc m),
          lower (conBounds env m nx nq ocp.crl ocp.cel jl r) (s'.g.val r + ε) ∧
          upper (conBounds env m nx nq ocp.cru ocp.ceu ju r) (s'.g.val r - ε)) ↔
      Near ocp env m ε (ε * W) (fun i => ε * (W / wAt env m i)) fun v => x.val v.pos) := by
  have hW : 0 < W := lt_of_lt_of_le (by norm_num) hT.floor
  have eW : wScaling env m = 1 / W := by rw [hT.unique (wScaling_top env m), one_div_one_div]
  obtain ⟨s, s', e, e', -, hg⟩ := nlp_constraints env m hm.ne_nil (fun v hv => h1.trans (hm.degree v hv).1) hq ocp l hl hd x hx
  refine ⟨s, s', e, e', ?_⟩
  obtain ⟨en, em, vl, vs, cl, cs⟩ := nlp_layout nx nu nq ncr nce (nColloc m)
  have hvar : (∀ r < numX nx nu nq (nColloc m), lower (xlower nx nu nq (nColloc m) r) (x.val r + ε) ∧ upper (xupper r) (x.val r - ε)) ↔
      ∀ v : NVar (nColloc m) nx nu nq, lower (xlower nx nu nq (nColloc m) v.pos) (x.val v.pos + ε) ∧ upper (xupper v.pos) (x.val v.pos - ε) :=
    ⟨fun h v => h _ (vl v), fun h r hr => by obtain ⟨v, rfl, -⟩ := vs r hr; exact h v⟩
  have hcon : (∀ r < numG nx nq ncr nce (nColloc m), lower (conBounds env m nx nq ocp.crl ocp.cel jl r) (s'.g.val r + ε) ∧
        upper (conBounds env m nx nq ocp.cru ocp.ceu ju r) (s'.g.val r - ε)) ↔
      ∀ c : NCon (nColloc m) nx nq ncr nce, lower (conBounds env m nx nq ocp.crl ocp.cel jl c.pos) (s'.g.val c.pos + ε) ∧
        upper (conBounds env m nx nq ocp.cru ocp.ceu ju c.pos) (s'.g.val c.pos - ε) :=
    ⟨fun h v => h _ (cl v), fun h r hr => by obtain ⟨v, rfl, -⟩ := cs r hr; exact h v⟩
  rw [hvar, hcon]
  simp only [hg, conBounds_at, xlower_at]
  have hw := wAt_pos env hm hL
  have eq0 : ∀ a : ℝ, (lower (.fin 0) (a + ε) ∧ upper (.fin 0) (a - ε)) ↔ |a| ≤ ε := fun a => by
    rw [abs_le]
    change (0 ≤ a + ε ∧ a - ε ≤ 0) ↔ _
    constructor <;> rintro ⟨h, h'⟩ <;> constructor <;> linarith
  have hco : ∀ k : Fin nx, coordAt (onMesh fun v : NVar (nColloc m) nx nu nq => x.val v.pos) k =
      fun l => if h : l < nColloc m + 1 then x.val (NVar.x (nu := nu) (nq := nq) ⟨l, h⟩ k).pos else 0 := fun k => rfl
  have habs : ∀ c d : ℝ, 0 < c → (|c * d| ≤ ε ↔ |d| ≤ ε * (1 / c)) := fun c d hc => by
    rw [abs_mul, abs_of_pos hc, ← le_div_iff₀' hc, mul_one_div]
  have hdyn : ∀ (i : Fin (nColloc m)) (k : Fin nx), |conFn ocp env m (wScaling env m) (.dyn i k) (fun v => x.val v.pos)| ≤ ε ↔
      |x.val (NVar.tf : NVar (nColloc m) nx nu nq).pos * ocp.f.val (pt (x.val (NVar.tf : NVar (nColloc m) nx nu nq).pos * tauAt env m i)
        (fun k => x.val (NVar.x (nu := nu) (nq := nq) i.castSucc k).pos) fun k => x.val (NVar.u (nx := nx) (nq := nq) i k).pos) k -
        slope env (spans 1 m) (fun l => if h : l < nColloc m + 1 then x.val (NVar.x (nu := nu) (nq := nq) ⟨l, h⟩ k).pos else 0) i| ≤ ε * (W / wAt env m i) := fun i k => by
    have e : ε * (W / wAt env m i) = ε * (1 / (1 / W * wAt env m i)) := by
      have := (hw i).ne'
      field_simp
    rw [e, ← habs _ _ (mul_pos (one_div_pos.2 hW) (hw i))]
    simp only [conFn, dynSpec, hco, nodePt_onMesh, onMesh, sub_zero]
    rw [eW, ← mul_assoc]
  have hint : ∀ (k : Fin nq), |conFn ocp env m (wScaling env m) (.int k) (fun v => x.val v.pos)| ≤ ε ↔
      |x.val (NVar.q k : NVar (nColloc m) nx nu nq).pos - x.val (NVar.tf : NVar (nColloc m) nx nu nq).pos * ∑ i : Fin (nColloc m), wAt env m i *
        ocp.g.val (pt (x.val (NVar.tf : NVar (nColloc m) nx nu nq).pos * tauAt env m i) (fun k => x.val (NVar.x (nu := nu) (nq := nq) i.castSucc k).pos)
          fun k => x.val (NVar.u (nx := nx) (nq := nq) i k).pos) k| ≤ ε * W := fun k => by
    have e : ε * W = ε * (1 / (1 / W)) := by field_simp
    rw [e, abs_sub_comm, ← habs _ _ (one_div_pos.2 hW)]
    simp only [conFn, integralSpec, nodePt_onMesh, onMesh, sub_zero]
    rw [eW]
  have hcr : ∀ (i : Fin (nColloc m)) (k : Fin ncr),
      conFn ocp env m (wScaling env m) (.cr i k) (fun v => x.val v.pos) = (wScaling env m * wAt env m i) * _ := fun i k => by
    simp only [conFn, evalSpec, if_true]
    rw [nodePt_onMesh, ← mul_assoc]
  have hpos : ∀ i : Fin (nColloc m), 0 < wScaling env m * wAt env m i := fun i => mul_pos (wScaling_pos env m) (hw i)
  have hinv : ∀ i : Fin (nColloc m), ε * (1 / (wScaling env m * wAt env m i)) = ε * (W / wAt env m i) := fun i => by
    rw [eW]
    have := (hw i).ne'
    field_simp
  constructor
  · rintro ⟨hv, hc⟩
    refine ⟨?_, fun i k => ?_, fun k => ?_, fun i k => ?_, fun k => hc (.ce k)⟩
    · have : (0 : ℝ) ≤ x.val (NVar.tf : NVar (nColloc m) nx nu nq).pos + ε := (hv .tf).1
      linarith
    · have := (hdyn i k).1 ((eq0 _).1 (hc (.dyn i k)))
      rw [abs_sub_comm]
      simpa only [hco, nodePt_onMesh, onMesh, sub_zero] using this
    · have := (hint k).1 ((eq0 _).1 (hc (.int k)))
      simpa only [hco, nodePt_onMesh, onMesh, sub_zero] using this
    · have := hc (.cr i k)
      simp only [hcr] at this
      rwa [lower_scale_add (hpos i), upper_scale_sub (hpos i), hinv] at this
  · intro h
    refine ⟨fun v => ⟨?_, trivial⟩, fun c => ?_⟩
    · cases v with
      | tf =>
        have := h.time
        change (0 : ℝ) ≤ _
        linarith
      | _ => trivial
    · cases c with
      | dyn i k =>
        refine (eq0 _).2 ((hdyn i k).2 ?_)
        have := h.dynamics i k
        rw [abs_sub_comm] at this
        simpa only [hco, nodePt_onMesh, onMesh, sub_zero] using this
      | int k =>
        refine (eq0 _).2 ((hint k).2 ?_)
        simpa only [hco, nodePt_onMesh, onMesh, sub_zero] using h.integrals k
      | cr i k =>
        simp only [hcr]
        rw [lower_scale_add (hpos i), upper_scale_sub (hpos i), hinv]
        exact h.running i k
      | ce k => exact h.endpoint k

/-! ### The bound is attained -/

theorem slope_zero (env : Mesh.Env ℝ) : ∀ (L : List (Ival ℝ × ℝ)) (p : ℕ), slope env L (fun _ => 0) p = 0
  | [], _ => rfl
  | (v, b) :: r, p => by
    unfold MeshFn.slope
    split_ifs
    · simp
    · exact slope_zero env r _

/-- Nothing moves and nothing costs; the input has to be nonpositive. -/
noncomputable def idle : OCP ℝ 1 1 1 1 1 where
  theta := drE fun _ _ => 0
  f := drOf fun _ _ => 0
  g := drOf fun _ _ => 0
  cr := drOf fun p _ => p (.u 0)
  crl := fun _ => .neg
  cru := fun _ => .fin 0
  ce := drE fun _ _ => 0
  cel := fun _ => .fin 0
  ceu := fun _ => .fin 0

/-- The input is `a` at point `i` and zero elsewhere. -/
def pulse {N : ℕ} (i : Fin N) (a : ℝ) : NVar N 1 1 1 → ℝ
  | .tf => 1
  | .q _ => 0
  | .x _ _ => 0
  | .u j _ => if j = i then a else 0

/-- **C138.** On every mesh and at every collocation point: a vector that meets all bounds of the program up to `ε` can violate a running constraint by `ε W / w`. -/
theorem nlp_tolerance_sharp (env : Mesh.Env ℝ) {Kmin Kmax : ℕ} (h1 : 1 ≤ Kmin) (m : Mesh ℝ) (hm : Valid Kmin Kmax m)
    (hL : ∀ K, Kmin ≤ K → K ≤ Kmax + 1 → IsLGR env K) (jl ju : ℕ → Ext ℝ) {ε : ℝ} (hε : 0 ≤ ε) (i : Fin (nColloc m)) {W : ℝ} (hT : Top env m W) :
    ∃ (x : Vec ℝ) (s s' : Obj ℝ), x.size = nVars (nColloc m) 1 1 1 ∧ history env idle m [] = some s ∧ Obj.geval env idle m x s = some s' ∧
      (∀ r < numX 1 1 1 (nColloc m), lower (xlower 1 1 1 (nColloc m) r) (x.val r + ε) ∧ upper (xupper r) (x.val r - ε)) ∧
      (∀ r < numG 1 1 1 1 (nColloc m), lower (conBounds env m 1 1 idle.crl idle.cel jl r) (s'.g.val r + ε) ∧ upper (conBounds env m 1 1 idle.cru idle.ceu ju r) (s'.g.val r - ε)) ∧
      x.val (NVar.u (nx := 1) (nq := 1) i (0 : Fin 1)).pos = ε * (W / wAt env m i) := by
  obtain ⟨s, s', e, e', h⟩ := nlp_tolerance_iff env h1 m hm hL le_rfl idle [] (by simp) (.inl (by simp)) (exVec (pulse i (ε * (W / wAt env m i)))) rfl jl ju ε hT
  have hw := wAt_pos env hm hL
  have W0 := hT.floor
  refine ⟨exVec (pulse i (ε * (W / wAt env m i))), s, s', rfl, e, e', ?_⟩
  have hn : ∀ j : Fin (nColloc m), 0 ≤ ε * (W / wAt env m j) := fun j => mul_nonneg hε (div_nonneg (le_trans (by norm_num) W0) (hw j).le)
  have hne : Near idle env m ε (ε * W) (fun i => ε * (W / wAt env m i)) fun v => (exVec (pulse i (ε * (W / wAt env m i)))).val v.pos := by
    simp only [exVec_val]
    refine ⟨?_, fun j k => ?_, fun k => ?_, fun j k => ⟨trivial, ?_⟩, fun k => ⟨?_, ?_⟩⟩
    · simp only [pulse]; linarith
    · have : (fun l => if h : l < nColloc m + 1 then pulse i (ε * (W / wAt env m i)) (.x ⟨l, h⟩ k) else 0) = fun _ => 0 := by
        funext l
        split_ifs <;> rfl
      rw [this, slope_zero]
      simpa [idle, drOf] using hn j
    · have : 0 ≤ ε * W := mul_nonneg hε (le_trans (by norm_num) W0)
      simpa [idle, drOf, pulse] using this
    · change (if j = i then ε * (W / wAt env m i) else 0) - ε * (W / wAt env m j) ≤ 0
      split_ifs with hj
      · rw [hj, sub_self]
      · linarith [hn j]
    · change (0 : ℝ) ≤ 0 + ε
      linarith
    · change (0 : ℝ) - ε ≤ 0
      linarith
  obtain ⟨a, b⟩ := h.2 hne
  refine ⟨a, b, ?_⟩
  rw [exVec_val]
  simp [pulse]

/-- A long and a short interval, with one point each. -/
noncomputable def uneven : Mesh ℝ := [⟨1, 0⟩, ⟨1, 99 / 100⟩]

theorem uneven_valid : Valid 1 1 uneven := by
  refine ⟨by simp [uneven], by simp [uneven], ?_, ?_⟩ <;> simp [uneven]
  norm_num

theorem uneven_weights : allWeights (lowEnv ℝ) uneven = [99 / 100, 1 / 100, 0] := by
  rw [allWeights_eq _ _ (by simp [uneven])]
  simp [uneven, spans, localWeights, lowEnv, List.range_succ]
  norm_num

theorem uneven_N : nColloc uneven = 2 := by simp [uneven, nColloc]

theorem uneven_top : Top (lowEnv ℝ) uneven (99 / 100) := by
  refine ⟨by norm_num, ?_, .inr ?_⟩ <;> rw [uneven_weights]
  · intro w hw
    simp at hw
    rcases hw with rfl | rfl | rfl <;> norm_num
  · simp

/-- **C138.** On this mesh a vector within `ε` of all bounds of the program violates a constraint by `99 ε`. -/
theorem nlp_tolerance_amplified (jl ju : ℕ → Ext ℝ) {ε : ℝ} (hε : 0 ≤ ε) :
    ∃ (x : Vec ℝ) (s s' : Obj ℝ), history (lowEnv ℝ) idle uneven [] = some s ∧ Obj.geval (lowEnv ℝ) idle uneven x s = some s' ∧
      (∀ r < numX 1 1 1 (nColloc uneven), lower (xlower 1 1 1 (nColloc uneven) r) (x.val r + ε) ∧ upper (xupper r) (x.val r - ε)) ∧
      (∀ r < numG 1 1 1 1 (nColloc uneven), lower (conBounds (lowEnv ℝ) uneven 1 1 idle.crl idle.cel jl r) (s'.g.val r + ε) ∧
        upper (conBounds (lowEnv ℝ) uneven 1 1 idle.cru idle.ceu ju r) (s'.g.val r - ε)) ∧
      x.val (NVar.u (nx := 1) (nq := 1) (⟨1, by rw [uneven_N]; norm_num⟩ : Fin (nColloc uneven)) (0 : Fin 1)).pos = 99 * ε := by
  obtain ⟨x, s, s', -, e, e', a, b, c⟩ := nlp_tolerance_sharp (lowEnv ℝ) le_rfl uneven uneven_valid (fun K h1 h2 => lowEnv_lgr K h1 h2) jl ju hε
    ⟨1, by rw [uneven_N]; norm_num⟩ uneven_top
  refine ⟨x, s, s', e, e', a, b, c.trans ?_⟩
  unfold wAt
  rw [uneven_weights]
  simp
  ring

end Verif.NLP
