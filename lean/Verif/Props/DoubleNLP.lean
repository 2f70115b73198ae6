import Verif.Proofs.DoubleNLP
import Verif.Props.MeshLoop
import Verif.Props.IpoptOCP
import Verif.Props.Collocated

/-! # The nonlinear program of the double integrator (C130) -/

namespace Verif.DI

open Verif.Mesh Verif.Sparse Verif.MeshFn Verif.NLP Verif.QP Verif.QPSpec Verif.Ipopt Verif.Flatten Verif.Pattern

/-! ### The program on one mesh -/

/-- **C130, solvable.** On every mesh with degrees of at least five, the first one of the example too, the nonlinear program has exactly one solution. -/
theorem di_nlp_best {env : Mesh.Env ℝ} (hB : IsLagrange env) {Kmin Kmax : ℕ} (h5 : 5 ≤ Kmin) {m : Mesh ℝ} (hm : Valid Kmin Kmax m)
    (hL : ∀ K, Kmin ≤ K → K ≤ Kmax + 1 → IsLGR env K) : ∃! z, Best env m z :=
  di_unique env (by omega) m hm hL (ease_feasible hB h5 hm hL)

theorem ocpDi_fixed : FixedOCP (ocpDi (F := ℝ)) := by
  have same : ∀ A : Sp ℝ, SameP A A := fun A => ⟨rfl, rfl, fun _ _ => Iff.rfl⟩
  refine ⟨⟨fun _ _ => same _, fun _ _ => same _⟩, ⟨fun _ _ => same _, fun _ _ => same _⟩, ⟨fun p q => ⟨rfl, rfl, fun i j => ?_⟩, fun _ _ => same _⟩,
    ⟨fun _ _ => same _, fun _ _ => same _⟩, ⟨fun _ _ => same _, fun _ _ => same _⟩⟩
  simp only [Pattern.pat, ocpDi, integral, built, Sp.update, Sp.empty, List.foldlM]
  simp
  split_ifs <;> simp

theorem ocpDi_separates : Separates (ocpDi (F := ℝ)).theta ∧ Separates (ocpDi (F := ℝ)).ce := by
  constructor
  · intro p j k i
    obtain rfl : k = 0 := Subsingleton.elim _ _
    have : pd (fun p => (ocpDi (F := ℝ)).theta.val p j) (.q 0) = fun _ => 1 := funext fun p => by
      change pd (fun p : EArg 2 1 → ℝ => p (.q 0)) (.q 0) p = 1
      rw [pd_coord, if_pos rfl]
    rw [this]
    exact ⟨pd_const _ _ _, pd_const _ _ _⟩
  · intro p j k i
    obtain rfl : k = 0 := Subsingleton.elim _ _
    have : pd (fun p => (ocpDi (F := ℝ)).ce.val p j) (.q 0) = fun _ => 0 := funext fun p => by
      fin_cases j
      · exact (pd_coord (EArg.tf : EArg 2 1) (.q 0) p).trans (by simp)
      · exact (pd_coord (EArg.x0 0 : EArg 2 1) (.q 0) p).trans (by simp)
      · exact (pd_coord (EArg.x0 1 : EArg 2 1) (.q 0) p).trans (by simp)
      · exact (pd_coord (EArg.xf 0 : EArg 2 1) (.q 0) p).trans (by simp)
      · exact (pd_coord (EArg.xf 1 : EArg 2 1) (.q 0) p).trans (by simp)
    rw [this]
    exact ⟨pd_const _ _ _, pd_const _ _ _⟩

/-- **C130, Hessians.** With the options of the example the wrapper computes Hessians, and after every history of callbacks the matrix that Ipopt assembles is the
Hessian of the Lagrangian of the program at the point asked for. -/
theorem di_nlp_hessian (env : Mesh.Env ℝ) {Kmin Kmax : ℕ} (h1 : 1 ≤ Kmin) {m : Mesh ℝ} (hm : Valid Kmin Kmax m) (jl ju : ℕ → Ext ℝ) :
    useHessianOf nlpOptions = true ∧ optValue "hessian_approximation" "exact" nlpOptions = "exact" ∧
    ∃ (S : List (ℕ × ℕ)) (nJ : ℕ), S.Nodup ∧ (∀ e ∈ S, e.2 ≤ e.1 ∧ e.1 < nVars (nColloc m) 2 1 1) ∧
      ∀ (junk : NLPStatus) (warm : Option (NLPSol ℝ)) (_ : ∀ v, warm = some v → Sized (nVars (nColloc m) 2 1 1) (nCons (nColloc m) 2 1 2 5) v)
        (l : List (CB ℝ)) (_ : ∀ c ∈ l, c.Ok (nVars (nColloc m) 2 1 1) (nCons (nColloc m) 2 1 2 5) nJ S.length true warm.isSome),
        ∃ w, after (ofOCP env ocpDi m jl ju) (Obj.init 2 1 1 2 5 (nColloc m)) junk warm (useHessianOf nlpOptions) l = some w ∧
          (∃ w', hessStruct (ofOCP env ocpDi m jl ju) true S.length w = some (S, w')) ∧
          ∀ (x : Vec ℝ) (sigma : ℝ) (lambda : Vec ℝ), x.size = nVars (nColloc m) 2 1 1 → lambda.size = nCons (nColloc m) 2 1 2 5 →
            ∃ V w', hessVal (ofOCP env ocpDi m jl ju) true S.length x sigma lambda w = some (V, w') ∧ V.length = S.length ∧
              ∀ v w : NVar (nColloc m) 2 1 1, symmetric S V v.pos w.pos =
                pd (pd (fun z => sigma * objective ocpDi z + ∑ c : NCon (nColloc m) 2 1 2 5, lambda.val c.pos * conFn ocpDi env m (wScaling env m) c z) v) w
                  fun v => x.val v.pos := by
  have hu : useHessianOf nlpOptions = true := by decide
  obtain ⟨S, nJ, a1, a2, a3⟩ := ipopt_ocp_hessian env m hm.ne_nil (fun v hv => h1.trans (hm.degree v hv).1) le_rfl ocpDi ocpDi_dr ocpDi_fixed ocpDi_separates.1
    ocpDi_separates.2 jl ju
  refine ⟨hu, by decide, S, nJ, a1, a2, fun junk warm hw l hl => ?_⟩
  rw [hu]
  exact (a3 junk warm hw).2 l hl

/-! ### The run -/

theorem moves_iff {env : Mesh.Env ℝ} {m : Mesh ℝ} {x : ℝ → Fin 2 → ℝ} {u : ℝ → Fin 1 → ℝ} {q : Fin 1 → ℝ} :
    FlatCollocated (ocpDi (F := ℝ)) env m 5 x u q ↔ Moves env m x u ∧ q 0 = expense env m x u := by
  have hg : ∀ t, (ocpDi (F := ℝ)).g.val (pt t (x t) (u t)) 0 = x t 0 ^ 2 + x t 1 ^ 2 + u t 0 ^ 2 := fun t => by
    simp only [ocpDi, integral, pt]
    ring
  constructor
  · intro h
    refine ⟨⟨h.dynamics, fun i => ?_, fun i => ?_, ?_, ?_⟩, ?_⟩
    · have := h.running i 0
      simpa [ocpDi, cr, pt, lower, upper] using this
    · have := h.running i 1
      rw [abs_le]
      simpa [ocpDi, cr, pt, lower, upper] using this
    · funext k
      fin_cases k
      · have := h.endpoint 1
        simp only [ocpDi, ce, ept, lower, upper] at this
        exact le_antisymm this.2 this.1
      · have := h.endpoint 2
        simp only [ocpDi, ce, ept, lower, upper] at this
        exact le_antisymm this.2 this.1
    · funext k
      fin_cases k
      · have := h.endpoint 3
        simp only [ocpDi, ce, ept, lower, upper] at this
        exact le_antisymm this.2 this.1
      · have := h.endpoint 4
        simp only [ocpDi, ce, ept, lower, upper] at this
        exact le_antisymm this.2 this.1
    · rw [h.integrals 0]
      simp only [hg]
      rfl
  · rintro ⟨h, hq⟩
    refine ⟨h.moves, fun k => ?_, fun i k => ?_, fun k => ?_⟩
    · fin_cases k
      change q 0 = 5 * ∑ i : Fin (nColloc m), wAt env m i * (ocpDi (F := ℝ)).g.val (pt (5 * tauAt env m i) (x (5 * tauAt env m i)) (u (5 * tauAt env m i))) 0
      rw [hq]
      simp only [hg]
      rfl
    · fin_cases k
      · have := h.speed i
        simpa [ocpDi, cr, pt, lower, upper] using this
      · have := abs_le.1 (h.acceleration i)
        simpa [ocpDi, cr, pt, lower, upper] using this
    · fin_cases k
      · exact ⟨le_refl _, le_refl _⟩
      all_goals simp [ocpDi, ce, ept, lower, upper, h.start, h.stop]

/-- **C130, the run.** Let Ipopt come back from every call with a vector of the right size that solves the program it was given. Then `main` comes to its end after at
most ten passes. Every stored solution is a motion of the body, defined at all times, that keeps the limits, starts and stops as asked for, and moves correctly, at the
collocation points of the mesh of its pass; its integral is its expense, and no feasible vector of the program costs less. If the loop was left early the measured
errors of the last pass are at most `10⁻⁶`; otherwise there were ten passes, each with a larger error. -/
theorem di_nlp_run (env : Mesh.Env ℝ) (hB : IsLagrange env) (hS : IsSearch env) (hg : GrowthPos env) (hL : ∀ K, 5 ≤ K → K ≤ 11 → IsLGR env K)
    (jl ju : ℕ → Ext ℝ) (junk : NLPStatus) (ipopt : Mesh ℝ → Option (NLPSol ℝ) → List (CB ℝ)) (jx jlam : ℕ → ℝ)
    (hret : ∀ m start, Valid 5 10 m → (∀ s, start = some s → SizedFor 2 1 1 2 5 m s) → ∃ s, nlpSolve env jl ju junk ipopt m start = some s ∧
      SizedFor 2 1 1 2 5 m s ∧ Best env m (held (nColloc m) 2 1 1 s.x)) :
    ∃ out, nlpMain env jl ju junk ipopt jx jlam = some out ∧ out.passes ≠ [] ∧ out.passes.length ≤ 10 ∧
      (∀ p ∈ out.passes, Valid 5 10 p.mesh ∧ p.sol.t0 = 0 ∧ p.sol.tf = 5 ∧ ∃ x u, (∀ t, p.sol.x t = some (x t)) ∧ (∀ t, p.sol.u t = some (u t)) ∧
        ContinuousOn x (Set.Icc 0 5) ∧ Moves env p.mesh x u ∧ p.sol.Q 0 = expense env p.mesh x u ∧
        ∀ z', NLP.Feasible ocpDi env p.mesh z' → expense env p.mesh x u ≤ objective ocpDi z') ∧
      (out.broke = true → ∃ p, out.passes.getLast? = some p ∧ p.mesh = out.mesh ∧ ∀ e ∈ p.errs, e ≤ 1 / 10 ^ 6) ∧
      (out.broke = false → out.passes.length = 10 ∧ ∀ p ∈ out.passes, ∃ e ∈ p.errs, 1 / 10 ^ 6 < e) := by
  have htf : ∀ {m : Mesh ℝ} {s : NLPSol ℝ}, NLP.Feasible ocpDi env m (held (nColloc m) 2 1 1 s.x) → s.x.val 0 = 5 := fun hf => ocpDi_time hf
  have hR : Returns 2 1 1 2 5 5 10 (nlpSolve env jl ju junk ipopt) := by
    intro m start hm hst
    obtain ⟨s, e, hsz, hf⟩ := hret m start hm hst
    exact ⟨s, e, hsz, by rw [htf hf.1]; norm_num⟩
  obtain ⟨out, r1, r2, -, -, r5, -, -, -, r9, r10⟩ := refine_loop env hB hS hg 5 10 (by norm_num) (by norm_num) hL
    (nlpSolve env jl ju junk ipopt) hR (fun t x u => (ocpDi (F := ℝ)).f.val (pt t x u)) targetErr (by norm_num [targetErr]) jx jlam 10
    [⟨5, 0⟩] (valid_single 5 10 (by norm_num)) (by simp) none (by simp)
  refine ⟨out, r1, ?_, r5, fun p hp => ?_, r9, fun hb => ⟨(r10 hb).1, (r10 hb).2.1⟩⟩
  · intro he
    cases hb : out.broke with
    | true =>
      obtain ⟨p, hp, -⟩ := r9 hb
      rw [he] at hp
      simp at hp
    | false =>
      have := (r10 hb).1
      rw [he] at this
      simp at this
  · have hok := r2 p hp
    obtain ⟨s, e1, e2⟩ := hok.solved
    obtain ⟨s', e1', hsz, hf⟩ := hret p.mesh p.start hok.valid hok.start
    obtain rfl : s' = s := Option.some.inj (e1'.symm.trans e1)
    have h5 := htf hf.1
    obtain ⟨o, x, u, c1, c2, c3, c4, c5, c6, -, -, c7, c8⟩ := nlp_collocated env hB hS (Kmin := 5) (Kmax := 10) (by norm_num) p.mesh hok.valid hL ocpDi s' hsz.1 hsz.2
      (by rw [h5]; norm_num)
    obtain rfl : o = p.sol := Option.some.inj (c1.symm.trans e2)
    rw [h5] at c3
    rw [c3] at c6 c7 c8
    obtain ⟨d1, d2⟩ := moves_iff.1 (c7.1 hf.1)
    refine ⟨hok.valid, c2, c3, x, u, c4, c5, c6, d1, d2, fun z' hz' => ?_⟩
    have h := hf.2 z' hz'
    rw [c8] at h
    rw [← d2]
    exact h

/-! ### The run does not depend on Ipopt -/

theorem ocpsol_congr {nx nu nq ncr nce : ℕ} {env : Mesh.Env ℝ} {m : Mesh ℝ} {s s' : NLPSol ℝ} {o o' : OCPSol ℝ nx nu nq ncr nce}
    (h : nlpsolToOcpsol nx nu nq ncr nce env m s = some o) (h' : nlpsolToOcpsol nx nu nq ncr nce env m s' = some o')
    (e : held (nColloc m) nx nu nq s.x = held (nColloc m) nx nu nq s'.x) :
    o.t0 = o'.t0 ∧ o.tf = o'.tf ∧ o.x = o'.x ∧ o.u = o'.u ∧ o.Q = o'.Q := by
  have hpos : ∀ v : NVar (nColloc m) nx nu nq, s.x.val v.pos = s'.x.val v.pos := fun v => congrFun e v
  have ht : s.x.val (tfB nx nu nq (nColloc m)) = s'.x.val (tfB nx nu nq (nColloc m)) := hpos .tf
  have hq : ∀ k : Fin nq, s.x.val (qB nx nu nq (nColloc m) + k) = s'.x.val (qB nx nu nq (nColloc m) + k) := fun k => hpos (.q k)
  have hx : cols nx (nColloc m + 1) (xB nx nu nq (nColloc m)) s.x = cols nx (nColloc m + 1) (xB nx nu nq (nColloc m)) s'.x := by
    refine List.map_congr_left fun i hi => funext fun k => ?_
    have := hpos (.x ⟨i, List.mem_range.1 hi⟩ k)
    simpa [NVar.pos, NLP.xB, beg, varLen, add_assoc] using this
  have hu : cols nu (nColloc m) (uB nx nu nq (nColloc m)) s.x = cols nu (nColloc m) (uB nx nu nq (nColloc m)) s'.x := by
    refine List.map_congr_left fun i hi => funext fun k => ?_
    have := hpos (.u ⟨i, List.mem_range.1 hi⟩ k)
    simpa [NVar.pos, NLP.uB, beg, varLen, add_assoc] using this
  unfold nlpsolToOcpsol at h h'
  simp only at h h'
  split_ifs at h h' with g g'
  obtain rfl := Option.some.inj h
  obtain rfl := Option.some.inj h'
  simp only [ht, hx, hu]
  exact ⟨trivial, trivial, trivial, trivial, funext hq⟩

/-- **C130, one result.** Two versions of Ipopt that both solve the programs they are given, whatever multipliers they return, whatever they do with the warm starts,
and whatever fresh vectors contain, lead to the same number of passes, on the same meshes, with the same trajectories and the same errors. -/
theorem di_nlp_same (env : Mesh.Env ℝ) (hB : IsLagrange env) (hS : IsSearch env) (hg : GrowthPos env) (hL : ∀ K, 5 ≤ K → K ≤ 11 → IsLGR env K)
    (jl ju jl' ju' : ℕ → Ext ℝ) (junk junk' : NLPStatus) (ipopt ipopt' : Mesh ℝ → Option (NLPSol ℝ) → List (CB ℝ)) (jx jlam jx' jlam' : ℕ → ℝ)
    (hret : ∀ m start, Valid 5 10 m → (∀ s, start = some s → SizedFor 2 1 1 2 5 m s) → ∃ s, nlpSolve env jl ju junk ipopt m start = some s ∧
      SizedFor 2 1 1 2 5 m s ∧ Best env m (held (nColloc m) 2 1 1 s.x))
    (hret' : ∀ m start, Valid 5 10 m → (∀ s, start = some s → SizedFor 2 1 1 2 5 m s) → ∃ s, nlpSolve env jl' ju' junk' ipopt' m start = some s ∧
      SizedFor 2 1 1 2 5 m s ∧ Best env m (held (nColloc m) 2 1 1 s.x)) :
    ∃ out out', nlpMain env jl ju junk ipopt jx jlam = some out ∧ nlpMain env jl' ju' junk' ipopt' jx' jlam' = some out' ∧
      out.passes.length = out'.passes.length ∧ out.broke = out'.broke ∧
      ∀ (k : ℕ) (p q : Pass 2 1 1 2 5), out.passes[k]? = some p → out'.passes[k]? = some q → SamePass p q := by
  have hR : ∀ {jl ju junk ipopt}, (∀ m start, Valid 5 10 m → (∀ s, start = some s → SizedFor 2 1 1 2 5 m s) → ∃ s, nlpSolve env jl ju junk ipopt m start = some s ∧
      SizedFor 2 1 1 2 5 m s ∧ Best env m (held (nColloc m) 2 1 1 s.x)) → Returns 2 1 1 2 5 5 10 (nlpSolve env jl ju junk ipopt) := by
    intro jl ju junk ipopt hret m start hm hst
    obtain ⟨s, e, hsz, hf⟩ := hret m start hm hst
    have h5 : s.x.val 0 = 5 := ocpDi_time hf.1
    exact ⟨s, e, hsz, by rw [h5]; norm_num⟩
  have hloop := fun (solve : Mesh ℝ → Option (NLPSol ℝ) → Option (NLPSol ℝ)) (h : Returns 2 1 1 2 5 5 10 solve) (jx jlam : ℕ → ℝ) =>
    refine_loop env hB hS hg 5 10 (by norm_num) (by norm_num) hL solve h (fun t x u => (ocpDi (F := ℝ)).f.val (pt t x u)) targetErr
      (by norm_num [targetErr]) jx jlam 10 [⟨5, 0⟩] (valid_single 5 10 (by norm_num)) (by simp) none (by simp)
  obtain ⟨out, r1, r2, r3, r4, r5, -, -, -, r9, r10⟩ := hloop _ (hR hret) jx jlam
  obtain ⟨out', q1, q2, q3, q4, q5, -, -, -, q9, q10⟩ := hloop _ (hR hret') jx' jlam'
  -- the passes on the same mesh
  have step : ∀ p ∈ out.passes, ∀ q ∈ out'.passes, p.mesh = q.mesh → SamePass p q := by
    intro p hp q hq hmesh
    have hp' := r2 p hp
    have hq' := q2 q hq
    obtain ⟨s, e1, e2⟩ := hp'.solved
    obtain ⟨s', e1', e2'⟩ := hq'.solved
    obtain ⟨a, f1, -, f3⟩ := hret p.mesh p.start hp'.valid hp'.start
    obtain rfl : a = s := Option.some.inj (f1.symm.trans e1)
    obtain ⟨b, g1, -, g3⟩ := hret' q.mesh q.start hq'.valid hq'.start
    obtain rfl : b = s' := Option.some.inj (g1.symm.trans e1')
    have hpl := hp'.errors
    have hql := hq'.errors
    rw [← hmesh] at e2' g3 hql
    have hheld := (di_nlp_best hB (by norm_num) hp'.valid hL).unique f3 g3
    obtain ⟨c1, c2, c3, c4, c5⟩ := ocpsol_congr e2 e2' hheld
    refine ⟨hmesh, c1, c2, c3, c4, c5, ?_⟩
    obtain ⟨l1, xf, uf, x1, x2⟩ := hpl
    obtain ⟨l2, xf', uf', y1, y2⟩ := hql
    obtain rfl : xf' = xf := funext fun t => Option.some.inj ((y1 t).1.symm.trans ((congrFun c3 t).symm.trans (x1 t).1))
    obtain rfl : uf' = uf := funext fun t => Option.some.inj ((y1 t).2.symm.trans ((congrFun c4 t).symm.trans (x1 t).2))
    refine List.ext_getElem? fun i => ?_
    by_cases hi : i < p.mesh.length
    · have hlen : (spans 1 p.mesh).length = p.mesh.length := spans_length 1 p.mesh
      have hg := List.getElem?_eq_getElem (l := spans 1 p.mesh) (i := i) (by omega)
      rw [x2 i _ _ hg, y2 i _ _ hg, c1, c2]
    · rw [List.getElem?_eq_none (by omega), List.getElem?_eq_none (by omega)]
  have same : ∀ (k : ℕ) (p q : Pass 2 1 1 2 5), out.passes[k]? = some p → out'.passes[k]? = some q → SamePass p q := by
    intro k
    induction k with
    | zero =>
      intro p q hp hq
      refine step p (List.mem_of_getElem? hp) q (List.mem_of_getElem? hq) ?_
      rw [← List.head?_eq_getElem?] at hp hq
      exact ((r4 p hp).1).trans (q4 q hq).1.symm
    | succ k ih =>
      intro p q hp hq
      refine step p (List.mem_of_getElem? hp) q (List.mem_of_getElem? hq) ?_
      have hk : k < out.passes.length := by have := (List.getElem?_eq_some_iff.1 hp).1; omega
      have hk' : k < out'.passes.length := by have := (List.getElem?_eq_some_iff.1 hq).1; omega
      have i1 := List.getElem?_eq_getElem hk
      have i2 := List.getElem?_eq_getElem hk'
      have hs := ih _ _ i1 i2
      have n1 := (r3 k _ _ i1 hp).refined
      have n2 := (q3 k _ _ i2 hq).refined
      rw [hs.mesh, hs.errs] at n1
      exact Option.some.inj (n1.symm.trans n2)
  -- the numbers of passes
  have long : ∀ {o o' : Outcome 2 1 1 2 5},
      (∀ (k : ℕ) (p q : Pass 2 1 1 2 5), o.passes[k]? = some p → o'.passes[k]? = some q → SamePass p q) →
      (o.broke = true → ∃ p, o.passes.getLast? = some p ∧ p.mesh = o.mesh ∧ ∀ e ∈ p.errs, e ≤ targetErr) →
      (o.broke = false → o.passes.length = 10) → o'.passes.length ≤ 10 →
      (∀ (k : ℕ) (p q : Pass 2 1 1 2 5), o'.passes[k]? = some p → o'.passes[k + 1]? = some q → ∃ e ∈ p.errs, targetErr < e) →
      o'.passes.length ≤ o.passes.length := by
    intro o o' hs hb hb' h10 hn
    by_contra hlt
    push Not at hlt
    cases hbr : o.broke with
    | false =>
      have := hb' hbr
      omega
    | true =>
      obtain ⟨p, hp, -, he⟩ := hb hbr
      rw [List.getLast?_eq_getElem?] at hp
      have hpos := (List.getElem?_eq_some_iff.1 hp).1
      have i1 := List.getElem?_eq_getElem (l := o'.passes) (i := o.passes.length - 1) (by omega)
      have i2 := List.getElem?_eq_getElem (l := o'.passes) (i := o.passes.length - 1 + 1) (by omega)
      obtain ⟨e, h1, h2⟩ := hn _ _ _ i1 i2
      rw [← (hs _ _ _ hp i1).errs] at h1
      exact absurd (he e h1) (not_le.2 h2)
  have same' : ∀ (k : ℕ) (p q : Pass 2 1 1 2 5), out'.passes[k]? = some p → out.passes[k]? = some q → SamePass p q := fun k p q hp hq => by
    obtain ⟨a, b, c, d, e, f, g⟩ := same k q p hq hp
    exact ⟨a.symm, b.symm, c.symm, d.symm, e.symm, f.symm, g.symm⟩
  have hlen : out.passes.length = out'.passes.length :=
    le_antisymm (long same' q9 (fun h => (q10 h).1) r5 fun k p q hp hq => (r3 k p q hp hq).above)
      (long same r9 (fun h => (r10 h).1) q5 fun k p q hp hq => (q3 k p q hp hq).above)
  have stop : ∀ {o o' : Outcome 2 1 1 2 5}, (∀ (k : ℕ) (p q : Pass 2 1 1 2 5), o.passes[k]? = some p → o'.passes[k]? = some q → SamePass p q) →
      o.passes.length = o'.passes.length →
      (o.broke = true → ∃ p, o.passes.getLast? = some p ∧ p.mesh = o.mesh ∧ ∀ e ∈ p.errs, e ≤ targetErr) →
      (o'.broke = false → ∀ p ∈ o'.passes, ∃ e ∈ p.errs, targetErr < e) → o.broke = true → o'.broke = true := by
    intro o o' hs hl hb hb' h
    obtain ⟨p, hp, -, he⟩ := hb h
    rw [List.getLast?_eq_getElem?] at hp
    have hpos := (List.getElem?_eq_some_iff.1 hp).1
    have i1 := List.getElem?_eq_getElem (l := o'.passes) (i := o.passes.length - 1) (by omega)
    by_contra hn
    obtain ⟨e, h1, h2⟩ := hb' (by simpa using hn) _ (List.mem_of_getElem? i1)
    rw [← (hs _ _ _ hp i1).errs] at h1
    exact absurd (he e h1) (not_le.2 h2)
  refine ⟨out, out', r1, q1, hlen, ?_, same⟩
  have a := stop same hlen r9 fun h => (q10 h).2.1
  have b := stop same' hlen.symm q9 fun h => (r10 h).2.1
  exact Bool.eq_iff_iff.2 ⟨a, b⟩

end Verif.DI
