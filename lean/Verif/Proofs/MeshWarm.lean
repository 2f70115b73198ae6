import Verif.Props.MeshTransfer

/-! # Converting a solution to a new mesh -/

namespace Verif.NLP

open Verif.Mesh Verif.Sparse Verif.MeshFn Verif.QP

variable {nx nu nq ncr nce : ℕ}

theorem iter_congr {α σ : Type*} (f g : α → σ → Option σ) (l : List α) (h : ∀ a ∈ l, ∀ s, f a s = g a s) (s : σ) : iter f l s = iter g l s := by
  induction l generalizing s with
  | nil => rfl
  | cons a l ih =>
    rw [iter, iter, h a (by simp)]
    cases g a s with
    | none => rfl
    | some s' => exact ih (fun b hb => h b (by simp [hb])) s'

theorem cols_eq_ofFn (n c b : ℕ) (x : Vec ℝ) : cols n c b x = List.ofFn fun (i : Fin c) (k : Fin n) => x.val (b + (n * i + k)) := by
  apply List.ext_getElem
  · simp [cols]
  · intro i h1 h2
    simp [cols]

/-- The solution of the control problem that given numbers on a mesh describe. -/
noncomputable def ocpsolOf (env : Mesh.Env ℝ) (m : Mesh ℝ) (z : NVar (nColloc m) nx nu nq → ℝ) (l : NCon (nColloc m) nx nq ncr nce → ℝ) :
    OCPSol ℝ nx nu nq ncr nce where
  t0 := 0
  tf := z .tf
  Q := fun k => z (.q k)
  u := fun t => eval env m ((t - 0) / (z .tf - 0)) (List.ofFn fun i k => z (.u i k)) 0 false
  x := fun t => eval env m ((t - 0) / (z .tf - 0)) (List.ofFn fun i k => z (.x i k)) 0 true
  lambda_q := fun k => l (.int k)
  lambda_ce := fun k => l (.ce k)
  lambda_dyn := fun t => eval env m ((t - 0) / (z .tf - 0)) (List.ofFn fun i k => l (.dyn i k)) 0 false
  lambda_cr := fun t => eval env m ((t - 0) / (z .tf - 0)) (List.ofFn fun i k => l (.cr i k)) 0 false

theorem nlpsol_ocpsolOf (env : Mesh.Env ℝ) (m : Mesh ℝ) (sol : NLPSol ℝ)
    (hx : sol.x.size = nVars (nColloc m) nx nu nq) (hl : sol.lambda.size = nCons (nColloc m) nx nq ncr nce) :
    nlpsolToOcpsol nx nu nq ncr nce env m sol =
      some (ocpsolOf env m (fun v => sol.x.val v.pos) fun c => sol.lambda.val c.pos) := by
  obtain ⟨b1, b2, b3, b4, b5⟩ := begs nx nu nq (nColloc m)
  obtain ⟨c1, c2, c3, c4, c5⟩ := cbegs nx nq ncr nce (nColloc m)
  unfold nlpsolToOcpsol
  simp only
  rw [if_pos (by rw [b5, c5]; exact ⟨hx, hl⟩)]
  simp only [cols_eq_ofFn, b1, b2, b3, b4, c1, c2, c3, c4, ocpsolOf, NVar.pos, NCon.pos, Nat.add_assoc, Nat.zero_add]

/-- A vector with given numbers at the positions of the variables. -/
noncomputable def vecX {N : ℕ} (z : NVar N nx nu nq → ℝ) : Vec ℝ :=
  ⟨nVars N nx nu nq, fun r => by classical exact if h : ∃ v : NVar N nx nu nq, v.pos = r then z h.choose else 0⟩

theorem vecX_pos {N : ℕ} (z : NVar N nx nu nq → ℝ) (v : NVar N nx nu nq) : (vecX z).val v.pos = z v := by
  have h : ∃ w : NVar N nx nu nq, w.pos = v.pos := ⟨v, rfl⟩
  simp only [vecX]
  rw [dif_pos h, NVar.pos_inj h.choose_spec]

noncomputable def vecL {N : ℕ} (l : NCon N nx nq ncr nce → ℝ) : Vec ℝ :=
  ⟨nCons N nx nq ncr nce, fun r => by classical exact if h : ∃ v : NCon N nx nq ncr nce, v.pos = r then l h.choose else 0⟩

theorem vecL_pos {N : ℕ} (l : NCon N nx nq ncr nce → ℝ) (v : NCon N nx nq ncr nce) : (vecL l).val v.pos = l v := by
  have h : ∃ w : NCon N nx nq ncr nce, w.pos = v.pos := ⟨v, rfl⟩
  simp only [vecL]
  rw [dif_pos h, NCon.pos_inj h.choose_spec]

/-- The numbers that a solution has at the nodes of a mesh. -/
noncomputable def sampX (env : Mesh.Env ℝ) (m : Mesh ℝ) (o : OCPSol ℝ nx nu nq ncr nce) : NVar (nColloc m) nx nu nq → ℝ
  | .tf => o.tf
  | .q k => o.Q k
  | .x i k => (o.x ((allNodes env m).getD i 0 * o.tf)).getD 0 k
  | .u i k => (o.u ((allNodes env m).getD i 0 * o.tf)).getD 0 k

noncomputable def sampL (env : Mesh.Env ℝ) (m : Mesh ℝ) (o : OCPSol ℝ nx nu nq ncr nce) : NCon (nColloc m) nx nq ncr nce → ℝ
  | .dyn i k => (o.lambda_dyn ((allNodes env m).getD i 0 * o.tf)).getD 0 k
  | .int k => o.lambda_q k
  | .cr i k => (o.lambda_cr ((allNodes env m).getD i 0 * o.tf)).getD 0 k
  | .ce k => o.lambda_ce k

/-- `ocpsol_to_nlpsol` samples the solution at the nodes; `o` need not come from the same mesh. -/
theorem ocpsol_samples {env : Mesh.Env ℝ} (hB : IsLagrange env) (hS : IsSearch env) {Kmin Kmax : ℕ} (h1 : 1 ≤ Kmin)
    {m : Mesh ℝ} (hm : Valid Kmin Kmax m) (hL : ∀ K, Kmin ≤ K → K ≤ Kmax + 1 → IsLGR env K) (o : OCPSol ℝ nx nu nq ncr nce)
    (htf : o.tf ≠ 0) (ho : ∀ t, (o.x t).isSome ∧ (o.u t).isSome ∧ (o.lambda_dyn t).isSome ∧ (o.lambda_cr t).isSome) (jx jl : ℕ → ℝ) :
    ∃ sol', ocpsolToNlpsol env m o jx jl = some sol' ∧ sol'.x.size = nVars (nColloc m) nx nu nq ∧
      sol'.lambda.size = nCons (nColloc m) nx nq ncr nce ∧ (∀ v, sol'.x.val (NVar.pos v) = sampX env m o v) ∧
      (∀ c, sol'.lambda.val (NCon.pos c) = sampL env m o c) := by
  obtain ⟨hnl, -⟩ := nodes_complete env Kmin Kmax h1 m hm hL
  obtain ⟨S, hSx, hSl⟩ : ∃ S : NLPSol ℝ, S.x = vecX (sampX env m o) ∧ S.lambda = vecL (sampL env m o) :=
    ⟨⟨.unknown, 0, vecX (sampX env m o), ⟨0, fun _ => 0⟩, ⟨0, fun _ => 0⟩, vecL (sampL env m o), 0⟩, rfl, rfl⟩
  have hxs : S.x.size = nVars (nColloc m) nx nu nq := by rw [hSx]; rfl
  have hls : S.lambda.size = nCons (nColloc m) nx nq ncr nce := by rw [hSl]; rfl
  have hS0 : S.x.val 0 = o.tf := by rw [hSx]; exact vecX_pos (sampX env m o) .tf
  obtain ⟨o2, sol', e1, e2, s1, v1, s2, v2, -⟩ := ocp_nlp_roundtrip_partial env hB hS Kmin Kmax h1 m hm hL S hxs hls (by rw [hS0]; exact htf) jx jl
  rw [nlpsol_ocpsolOf env m S hxs hls] at e1
  have e1 := Option.some.inj e1
  simp only [hSx, hSl, vecX_pos, vecL_pos] at e1
  have node : ∀ i, i < nColloc m + 1 → (allNodes env m)[i]? = some ((allNodes env m).getD i 0) := by
    intro i hi
    rw [List.getD_eq_getElem?_getD, List.getElem?_eq_getElem (by omega)]; rfl
  have arg : ∀ t : ℝ, (t * o.tf - 0) / (o.tf - 0) = t := fun t => by field_simp; ring
  have same : ocpsolToNlpsol env m o jx jl = ocpsolToNlpsol env m o2 jx jl := by
    unfold ocpsolToNlpsol
    have f1 : o2.tf = o.tf := by rw [← e1]; rfl
    have f2 : o2.Q = o.Q := by rw [← e1]; rfl
    have f3 : o2.lambda_q = o.lambda_q := by rw [← e1]; rfl
    have f4 : o2.lambda_ce = o.lambda_ce := by rw [← e1]; rfl
    simp only [f1, f2, f3, f4]
    rw [iter_congr (sampleStep (nColloc m) o) (sampleStep (nColloc m) o2)]
    rintro ⟨i, t⟩ hit s
    obtain ⟨k, hk, hkt⟩ := List.getElem_of_mem hit
    simp only [List.getElem_zip, List.getElem_range, Prod.mk.injEq] at hkt
    have hk' : k < (allNodes env m).length := by simpa using hk
    obtain ⟨rfl, hkt⟩ := hkt
    have ht : t = (allNodes env m).getD k 0 := by
      rw [List.getD_eq_getElem?_getD, List.getElem?_eq_getElem hk']; exact hkt.symm
    have harg : (0 : ℝ) + t * (o.tf - 0) = t * o.tf := by ring
    have hx : o2.x (t * o.tf) = o.x (t * o.tf) := by
      rw [← e1]
      simp only [ocpsolOf, sampX, arg]
      rw [ht, eval_interpolates env hB hS Kmin Kmax m hm hL _ (by simp; omega) k _ (node k (by omega)), List.getElem?_ofFn,
        dif_pos (by omega)]
      obtain ⟨w, hw⟩ := Option.isSome_iff_exists.1 (ho ((allNodes env m).getD k 0 * o.tf)).1
      simp only [hw, Option.getD_some]
    have hrest : k < nColloc m → o2.u (t * o.tf) = o.u (t * o.tf) ∧ o2.lambda_dyn (t * o.tf) = o.lambda_dyn (t * o.tf) ∧
        o2.lambda_cr (t * o.tf) = o.lambda_cr (t * o.tf) := by
      intro hkN
      rw [← e1]
      simp only [ocpsolOf, sampX, sampL, arg]
      rw [ht, eval_interpolates_open env hB hS Kmin Kmax h1 m hm hL _ (by simp) k hkN _ (node k (by omega)),
        eval_interpolates_open env hB hS Kmin Kmax h1 m hm hL _ (by simp) k hkN _ (node k (by omega)),
        eval_interpolates_open env hB hS Kmin Kmax h1 m hm hL _ (by simp) k hkN _ (node k (by omega))]
      simp only [List.getElem?_ofFn, hkN, dite_true]
      obtain ⟨w2, hw2⟩ := Option.isSome_iff_exists.1 (ho ((allNodes env m).getD k 0 * o.tf)).2.1
      obtain ⟨w3, hw3⟩ := Option.isSome_iff_exists.1 (ho ((allNodes env m).getD k 0 * o.tf)).2.2.1
      obtain ⟨w4, hw4⟩ := Option.isSome_iff_exists.1 (ho ((allNodes env m).getD k 0 * o.tf)).2.2.2
      simp only [hw2, hw3, hw4, Option.getD_some, and_self]
    unfold sampleStep
    simp only [f1, harg, hx]
    by_cases hkN : k < nColloc m
    · obtain ⟨r1, r2, r3⟩ := hrest hkN
      simp only [if_pos hkN, r1, r2, r3]
    · simp only [if_neg hkN]
  refine ⟨sol', same.trans e2, s1.trans hxs, s2.trans hls, fun v => ?_, fun c => ?_⟩
  · rw [v1 _ (by rw [hxs]; exact v.pos_lt), hSx, vecX_pos]
  · rw [v2 _ (by rw [hls]; exact c.pos_lt), hSl, vecL_pos]

end Verif.NLP
