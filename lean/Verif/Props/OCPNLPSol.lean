import Verif.Proofs.OCPNLPBounds
import Verif.Props.MeshPoly
import Verif.Props.MeshFnExamples

/-! # Solutions of the problem and of the program (C31) -/

set_option linter.unusedSectionVars false

namespace Verif.NLP

open Verif.Mesh Verif.Sparse Verif.MeshFn Verif.QP

variable {nx nu nq ncr nce : ℕ}

/-- With one value per collocation point (none at the end of the mesh), `eval` at the `k`-th collocation point returns the `k`-th
value. -/
theorem eval_interpolates_open {V : Type*} [AddCommGroup V] [Module ℝ V] (env : Mesh.Env ℝ) (hB : IsLagrange env) (hS : IsSearch env)
    (Kmin Kmax : ℕ) (h1 : 1 ≤ Kmin) (m : Mesh ℝ) (hm : Valid Kmin Kmax m) (hL : ∀ K, Kmin ≤ K → K ≤ Kmax + 1 → IsLGR env K)
    (r : List V) (hr : r.length = nColloc m) (k : ℕ) (hk : k < nColloc m) (x : ℝ) (hx : (allNodes env m)[k]? = some x) :
    eval env m x r 0 false = r[k]? := by
  have hlen : r.length = points m := hr.trans (nColloc_eq m)
  have hk' : k < points m := lt_of_lt_of_eq hk (nColloc_eq m)
  rw [allNodes_eq env m hm.ne_nil, List.getElem?_append_left (by rw [flatMap_length_localNodes]; exact hk')] at hx
  obtain ⟨i, ⟨v, b⟩, j, hi, hj, hkj⟩ := flatMap_getElem? _ _ _ _ hx
  have hj' := (List.getElem?_eq_some_iff.1 hj).1
  have hjK : j < v.K := by simpa [localNodes] using hj'
  have hord := span_ordered hm hi
  obtain ⟨hv, -⟩ := spans_some hi
  have hd := hm.degree v (List.mem_of_getElem? hv)
  have hK := hL v.K hd.1 hd.2
  have hxv : x = toMesh v.tau0 b (env.node v.K j) := by
    simp only [localNodes, List.getElem?_map, List.getElem?_range hjK, Option.map_some, Option.some.injEq] at hj
    rw [← hj, toMesh]
  have hb := (localNodes_bounds (p := (v, b)) hK hord.1).1 x (List.mem_of_getElem? hj)
  have hpos : k = points (m.take i) + j := by
    rw [hkj]
    congr 1
    unfold points
    conv_rhs => rw [← spans_fst 1 m]
    rw [← List.map_take, List.map_map]
    congr 1
    apply List.map_congr_left
    intro p _
    simp [localNodes]
  have hf : intervalFind env m x = i := by
    have h0 : 0 ≤ x := hord.2.2.trans hb.1
    have h1 : x < 1 := lt_of_lt_of_le hb.2 hord.2.1
    exact ((interval_find_correct env hS Kmin Kmax m hm x).2.2 h0 h1).2 i v b hi hb.1 hb.2
  have hpt := points_take_add hv
  have hil : i < m.length := (List.getElem?_eq_some_iff.1 hv).1
  by_cases hlast : i + 1 = m.length
  · obtain ⟨N, hN⟩ : ∃ N, v.K = N + 1 := ⟨v.K - 1, by omega⟩
    have hin : ∀ j : Fin (N + 1), points (m.take i) + j < r.length := by intro j; have := j.2; omega
    rw [eval_last hf hi hlast hN (fun j => r[points (m.take i) + j]'(hin j)) (fun j => List.getElem?_eq_getElem (hin j))]
    rw [hxv, local_coord hord.1]
    rw [hN] at hK hjK ⊢
    have hinj : Function.Injective fun j : Fin (N + 1) => env.node (N + 1) j := fun a c hac => by
      rcases lt_trichotomy a c with h | h | h
      · exact absurd hac (hK.increasing a c h c.2).ne
      · exact h
      · exact absurd hac.symm (hK.increasing c a h a.2).ne
    have hw := evalWeights_node (hB N _ hinj) (⟨j, hjK⟩ : Fin (N + 1))
    simp only at hw
    simp only [hw, ite_smul, one_smul, zero_smul, Finset.sum_ite_eq, Finset.mem_univ, if_true]
    rw [hpos, ← List.getElem?_eq_getElem]
  · have hnext : m[i + 1]? = some m[i + 1] := List.getElem?_eq_getElem (by omega)
    have hd' := hm.degree _ (List.mem_of_getElem? hnext)
    have hpt' := points_take_add hnext
    have hstep : points (m.take (i + 1)) = points (m.take i) + v.K := by
      rw [List.take_add_one, hv]; simp [points]
    have hin : ∀ j : Fin (v.K + 1), points (m.take i) + j < r.length := by intro j; have := j.2; omega
    rw [eval_ext hf hi (Or.inr (by omega)) (fun j => r[points (m.take i) + j]'(hin j)) (fun j => List.getElem?_eq_getElem (hin j))]
    have hn : env.node v.K j = nodeExt env v.K j := by rw [nodeExt, if_pos hjK]
    rw [hxv, local_coord hord.1, hn]
    have hw := evalWeights_node (hB v.K _ (nodeExt_injective hK)) (⟨j, by omega⟩ : Fin (v.K + 1))
    simp only at hw
    simp only [hw, ite_smul, one_smul, zero_smul, Finset.sum_ite_eq, Finset.mem_univ, if_true]
    rw [hpos, ← List.getElem?_eq_getElem]

/-! ### Columns in the vectors -/

theorem loc_col {n c b p : ℕ} (i : ℕ) (j : ℕ) (k : Fin n) (hp : p = b + (n * j + k)) (hc : c = b + i * n) :
    loc c n p = if i = j then some (k : ℕ) else none := by
  by_cases h : i = j
  · subst h
    rw [if_pos rfl]
    exact loc_some (by rw [hp, hc, Nat.mul_comm]; omega) k.2
  · rw [if_neg h]
    apply loc_none
    have e := Nat.mul_comm i n
    by_contra hcon
    push Not at hcon
    have := k.2
    exact h (mul_block (n := n) (b := (k : ℕ)) k.2 (by omega) (by omega)).symm

theorem col_x {N : ℕ} (i : ℕ) (hi : i < N + 1) (v : NVar N nx nu nq) : loc (xB nx nu nq N + i * nx) nx v.pos = match v with
    | .x j k => if i = j then some (k : ℕ) else none
    | _ => none := by
  have e := (begs nx nu nq N).2.2.1
  have hle : i * nx + nx ≤ nx * (N + 1) := by
    calc i * nx + nx = nx * (i + 1) := by ring
      _ ≤ nx * (N + 1) := Nat.mul_le_mul_left _ hi
  cases v with
  | x j k =>
    have h : (NVar.x j k : NVar N nx nu nq).pos = xB nx nu nq N + (nx * (j : ℕ) + k) := by simp only [NVar.pos, e]; omega
    exact loc_col i j k h rfl
  | tf => exact loc_none (by simp only [NVar.pos, e]; omega)
  | q k => exact loc_none (by simp only [NVar.pos, e]; omega)
  | u j k => exact loc_none (by simp only [NVar.pos, e]; omega)

theorem col_u {N : ℕ} (i : ℕ) (v : NVar N nx nu nq) : loc (uB nx nu nq N + i * nu) nu v.pos = match v with
    | .u j k => if i = j then some (k : ℕ) else none
    | _ => none := by
  have e := (begs nx nu nq N).2.2.2.1
  cases v with
  | u j k =>
    have h : (NVar.u j k : NVar N nx nu nq).pos = uB nx nu nq N + (nu * (j : ℕ) + k) := by simp only [NVar.pos, e]; omega
    exact loc_col i j k h rfl
  | tf => exact loc_none (by simp only [NVar.pos, e]; omega)
  | q k => exact loc_none (by simp only [NVar.pos, e]; omega)
  | x j k => have := row_le j k; exact loc_none (by simp only [NVar.pos, e]; omega)

theorem col_dyn {N : ℕ} (i : ℕ) (hi : i < N) (c : NCon N nx nq ncr nce) : loc (dB nx nq ncr nce N + i * nx) nx c.pos = match c with
    | .dyn j k => if i = j then some (k : ℕ) else none
    | _ => none := by
  have e := (cbegs nx nq ncr nce N).1
  have hle : i * nx + nx ≤ nx * N := by
    calc i * nx + nx = nx * (i + 1) := by ring
      _ ≤ nx * N := Nat.mul_le_mul_left _ hi
  cases c with
  | dyn j k =>
    have h : (NCon.dyn j k : NCon N nx nq ncr nce).pos = dB nx nq ncr nce N + (nx * (j : ℕ) + k) := by simp only [NCon.pos, e]; omega
    exact loc_col i j k h rfl
  | int k => exact loc_none (by simp only [NCon.pos, e]; omega)
  | cr j k => exact loc_none (by simp only [NCon.pos, e]; omega)
  | ce k => exact loc_none (by simp only [NCon.pos, e]; omega)

theorem col_cr {N : ℕ} (i : ℕ) (hi : i < N) (c : NCon N nx nq ncr nce) : loc (crB nx nq ncr nce N + i * ncr) ncr c.pos = match c with
    | .cr j k => if i = j then some (k : ℕ) else none
    | _ => none := by
  have e := (cbegs nx nq ncr nce N).2.2.1
  have hle : i * ncr + ncr ≤ ncr * N := by
    calc i * ncr + ncr = ncr * (i + 1) := by ring
      _ ≤ ncr * N := Nat.mul_le_mul_left _ hi
  cases c with
  | cr j k =>
    have h : (NCon.cr j k : NCon N nx nq ncr nce).pos = crB nx nq ncr nce N + (ncr * (j : ℕ) + k) := by simp only [NCon.pos, e]; omega
    exact loc_col i j k h rfl
  | int k => exact loc_none (by simp only [NCon.pos, e]; omega)
  | dyn j k => have := row_le j k; exact loc_none (by simp only [NCon.pos, e]; omega)
  | ce k => exact loc_none (by simp only [NCon.pos, e]; omega)

/-- The variables that have been written before node `c`. -/
def doneV {N : ℕ} (c : ℕ) : NVar N nx nu nq → Prop
  | .tf => True
  | .q _ => True
  | .x i _ => (i : ℕ) < c
  | .u i _ => (i : ℕ) < c

def doneC {N : ℕ} (c : ℕ) : NCon N nx nq ncr nce → Prop
  | .int _ => True
  | .ce _ => True
  | .dyn i _ => (i : ℕ) < c
  | .cr i _ => (i : ℕ) < c

theorem cols_get (n c b : ℕ) (x : Vec ℝ) (i : ℕ) (hi : i < c) : (cols n c b x)[i]? = some fun k : Fin n => x.val (b + (n * i + k)) := by
  simp [cols, hi]

/-- **C31 (partial).** Let the mesh consist of LGR intervals and the final time be nonzero. Converting a solution of the nonlinear
program to one of the optimal control problem and back succeeds and restores the vector `x` and the multipliers `λ` of the
constraints, whatever the fresh vectors contained before. Missing for the full claim: the multipliers `zl`, `zu` of the variable
bounds are not part of a solution of the control problem and come back as zero; so do `status`, `iter` and `objective`. -/
theorem ocp_nlp_roundtrip_partial (env : Mesh.Env ℝ) (hB : IsLagrange env) (hS : IsSearch env) (Kmin Kmax : ℕ) (h1 : 1 ≤ Kmin)
    (m : Mesh ℝ) (hm : Valid Kmin Kmax m) (hL : ∀ K, Kmin ≤ K → K ≤ Kmax + 1 → IsLGR env K) (sol : NLPSol ℝ)
    (hx : sol.x.size = nVars (nColloc m) nx nu nq) (hl : sol.lambda.size = nCons (nColloc m) nx nq ncr nce)
    (htf : sol.x.val 0 ≠ 0) (jx jl : ℕ → ℝ) :
    ∃ (o : OCPSol ℝ nx nu nq ncr nce) (sol' : NLPSol ℝ), nlpsolToOcpsol nx nu nq ncr nce env m sol = some o ∧
      ocpsolToNlpsol env m o jx jl = some sol' ∧
      sol'.x.size = sol.x.size ∧ (∀ r < sol.x.size, sol'.x.val r = sol.x.val r) ∧
      sol'.lambda.size = sol.lambda.size ∧ (∀ r < sol.lambda.size, sol'.lambda.val r = sol.lambda.val r) ∧
      sol'.zl = ⟨sol.x.size, fun _ => 0⟩ ∧ sol'.zu = ⟨sol.x.size, fun _ => 0⟩ ∧
      sol'.status = .unknown ∧ sol'.iter = 0 ∧ sol'.objective = 0 := by
  obtain ⟨b1, b2, b3, b4, b5⟩ := begs nx nu nq (nColloc m)
  obtain ⟨c1, c2, c3, c4, c5⟩ := cbegs nx nq ncr nce (nColloc m)
  obtain ⟨hnl, -, -, -, -, -, -, -⟩ := nodes_complete env Kmin Kmax h1 m hm hL
  have hsz : sol.x.size = numX nx nu nq (nColloc m) ∧ sol.lambda.size = numG nx nq ncr nce (nColloc m) := by rw [b5, c5]; exact ⟨hx, hl⟩
  obtain ⟨o, eo⟩ : ∃ o : OCPSol ℝ nx nu nq ncr nce, nlpsolToOcpsol nx nu nq ncr nce env m sol = some o := by
    unfold nlpsolToOcpsol
    simp only
    rw [if_pos hsz]
    exact ⟨_, rfl⟩
  have eo' := eo
  unfold nlpsolToOcpsol at eo'
  simp only at eo'
  rw [if_pos hsz, Option.some.injEq] at eo'
  have otf : o.tf = sol.x.val 0 := by rw [← eo', b1]
  -- the functions at the nodes
  have at_node : ∀ (i : ℕ) (t : ℝ), (allNodes env m)[i]? = some t → (0 + t * (o.tf - 0) - 0) / (sol.x.val (tfB nx nu nq (nColloc m)) - 0) = t := by
    intro i t _
    rw [otf, b1]
    field_simp
    ring
  have ox : ∀ (i : ℕ) (t : ℝ), i < nColloc m + 1 → (allNodes env m)[i]? = some t →
      o.x (0 + t * (o.tf - 0)) = some fun k => sol.x.val (NVar.x (N := nColloc m) (nu := nu) (nq := nq) (Fin.ofNat _ i) k).pos := by
    intro i t hi ht
    have e : o.x (0 + t * (o.tf - 0)) = eval env m ((0 + t * (o.tf - 0) - 0) / (sol.x.val (tfB nx nu nq (nColloc m)) - 0))
        (cols nx (nColloc m + 1) (xB nx nu nq (nColloc m)) sol.x) 0 true := by rw [← eo']
    rw [e, at_node i t ht, eval_interpolates env hB hS Kmin Kmax m hm hL _ (by rw [cols, List.length_map, List.length_range, hnl]) i t ht,
      cols_get _ _ _ _ _ hi, b3]
    congr 1; funext k
    simp only [NVar.pos, Fin.val_ofNat, Nat.mod_eq_of_lt hi, Nat.add_assoc]
  have opn : ∀ {n : ℕ} (c : List (Fin n → ℝ)), c.length = nColloc m → ∀ (i : ℕ) (t : ℝ), i < nColloc m → (allNodes env m)[i]? = some t →
      eval env m ((0 + t * (o.tf - 0) - 0) / (sol.x.val (tfB nx nu nq (nColloc m)) - 0)) c 0 false = c[i]? := by
    intro n c hc i t hi ht
    rw [at_node i t ht]
    exact eval_interpolates_open env hB hS Kmin Kmax h1 m hm hL c hc i hi t ht
  have ou : ∀ (i : Fin (nColloc m)) t, (allNodes env m)[(i : ℕ)]? = some t →
      o.u (0 + t * (o.tf - 0)) = some fun k => sol.x.val (NVar.u (nx := nx) (nq := nq) i k).pos := by
    intro i t ht
    have := opn (cols nu (nColloc m) (uB nx nu nq (nColloc m)) sol.x) (by simp [cols]) i t i.2 ht
    rw [cols_get _ _ _ _ _ i.2, b4] at this
    have e : o.u (0 + t * (o.tf - 0)) = eval env m ((0 + t * (o.tf - 0) - 0) / (sol.x.val (tfB nx nu nq (nColloc m)) - 0))
        (cols nu (nColloc m) (1 + nq + nx * (nColloc m + 1)) sol.x) 0 false := by rw [← eo', b4]
    rw [e, this]
    congr 1; funext k
    simp only [NVar.pos, Nat.add_assoc]
  have od : ∀ (i : Fin (nColloc m)) t, (allNodes env m)[(i : ℕ)]? = some t →
      o.lambda_dyn (0 + t * (o.tf - 0)) = some fun k => sol.lambda.val (NCon.dyn (nq := nq) (ncr := ncr) (nce := nce) i k).pos := by
    intro i t ht
    have := opn (cols nx (nColloc m) (dB nx nq ncr nce (nColloc m)) sol.lambda) (by simp [cols]) i t i.2 ht
    rw [cols_get _ _ _ _ _ i.2, c1] at this
    have e : o.lambda_dyn (0 + t * (o.tf - 0)) = eval env m ((0 + t * (o.tf - 0) - 0) / (sol.x.val (tfB nx nu nq (nColloc m)) - 0))
        (cols nx (nColloc m) 0 sol.lambda) 0 false := by rw [← eo', c1]
    rw [e, this]
    congr 1; funext k
    simp only [NCon.pos, Nat.zero_add]
  have oc : ∀ (i : Fin (nColloc m)) t, (allNodes env m)[(i : ℕ)]? = some t →
      o.lambda_cr (0 + t * (o.tf - 0)) = some fun k => sol.lambda.val (NCon.cr (nx := nx) (nq := nq) (nce := nce) i k).pos := by
    intro i t ht
    have := opn (cols ncr (nColloc m) (crB nx nq ncr nce (nColloc m)) sol.lambda) (by simp [cols]) i t i.2 ht
    rw [cols_get _ _ _ _ _ i.2, c3] at this
    have e : o.lambda_cr (0 + t * (o.tf - 0)) = eval env m ((0 + t * (o.tf - 0) - 0) / (sol.x.val (tfB nx nu nq (nColloc m)) - 0))
        (cols ncr (nColloc m) (nx * nColloc m + nq) sol.lambda) 0 false := by rw [← eo', c3]
    rw [e, this]
    congr 1; funext k
    simp only [NCon.pos, Nat.add_assoc]
  -- the loop
  have loop : ∀ n c (s : Vec ℝ × Vec ℝ), c + n = nColloc m + 1 →
      s.1.size = nVars (nColloc m) nx nu nq → s.2.size = nCons (nColloc m) nx nq ncr nce →
      (∀ v : NVar (nColloc m) nx nu nq, doneV c v → s.1.val v.pos = sol.x.val v.pos) →
      (∀ v : NCon (nColloc m) nx nq ncr nce, doneC c v → s.2.val v.pos = sol.lambda.val v.pos) →
      ∃ s', iter (sampleStep (nColloc m) o) ((List.range' c n).zip ((allNodes env m).drop c)) s = some s' ∧
        s'.1.size = nVars (nColloc m) nx nu nq ∧ s'.2.size = nCons (nColloc m) nx nq ncr nce ∧
        (∀ v : NVar (nColloc m) nx nu nq, s'.1.val v.pos = sol.x.val v.pos) ∧
        (∀ v : NCon (nColloc m) nx nq ncr nce, s'.2.val v.pos = sol.lambda.val v.pos) := by
    intro n
    induction n with
    | zero =>
      intro c s hc z1 z2 d1 d2
      refine ⟨s, rfl, z1, z2, fun v => d1 v ?_, fun v => d2 v ?_⟩
      · cases v with
        | x i k => have := i.2; simp only [doneV]; omega
        | u i k => have := i.2; simp only [doneV]; omega
        | _ => trivial
      · cases v with
        | dyn i k => have := i.2; simp only [doneC]; omega
        | cr i k => have := i.2; simp only [doneC]; omega
        | _ => trivial
    | succ n ih =>
      intro c s hc z1 z2 d1 d2
      have hcl : c < (allNodes env m).length := by omega
      have hcm : c < nColloc m + 1 := by omega
      have ht : (allNodes env m)[c]? = some (allNodes env m)[c] := List.getElem?_eq_getElem hcl
      rw [List.range'_succ, List.drop_eq_getElem_cons hcl, List.zip_cons_cons, iter]
      have hxle : xB nx nu nq (nColloc m) + c * nx + nx ≤ s.1.size := by
        rw [z1, b3, nVars]
        have : c * nx + nx ≤ nx * (nColloc m + 1) := by
          calc c * nx + nx = nx * (c + 1) := by ring
            _ ≤ nx * (nColloc m + 1) := Nat.mul_le_mul_left _ (by omega)
        omega
      have e1 := setSeg_loc s.1 (xB nx nu nq (nColloc m) + c * nx) nx
        (ext fun k : Fin nx => sol.x.val (NVar.x (N := nColloc m) (nu := nu) (nq := nq) (Fin.ofNat _ c) k).pos) hxle
      by_cases hcN : c < nColloc m
      · have hule : uB nx nu nq (nColloc m) + c * nu + nu ≤ s.1.size := by
          rw [z1, b4, nVars]
          have : c * nu + nu ≤ nu * nColloc m := by
            calc c * nu + nu = nu * (c + 1) := by ring
              _ ≤ nu * nColloc m := Nat.mul_le_mul_left _ (by omega)
          omega
        have hdle : dB nx nq ncr nce (nColloc m) + c * nx + nx ≤ s.2.size := by
          rw [z2, c1, nCons]
          have : c * nx + nx ≤ nx * nColloc m := by
            calc c * nx + nx = nx * (c + 1) := by ring
              _ ≤ nx * nColloc m := Nat.mul_le_mul_left _ (by omega)
          omega
        have hcle : crB nx nq ncr nce (nColloc m) + c * ncr + ncr ≤ s.2.size := by
          rw [z2, c3, nCons]
          have : c * ncr + ncr ≤ ncr * nColloc m := by
            calc c * ncr + ncr = ncr * (c + 1) := by ring
              _ ≤ ncr * nColloc m := Nat.mul_le_mul_left _ (by omega)
          omega
        have hstep : ∃ s1, sampleStep (nColloc m) o (c, (allNodes env m)[c]) s = some s1 ∧
            s1.1.size = nVars (nColloc m) nx nu nq ∧ s1.2.size = nCons (nColloc m) nx nq ncr nce ∧
            (∀ v : NVar (nColloc m) nx nu nq, doneV (c + 1) v → s1.1.val v.pos = sol.x.val v.pos) ∧
            (∀ v : NCon (nColloc m) nx nq ncr nce, doneC (c + 1) v → s1.2.val v.pos = sol.lambda.val v.pos) := by
          unfold sampleStep
          simp only [ox c _ hcm ht, e1, if_pos hcN, ou ⟨c, hcN⟩ _ ht, od ⟨c, hcN⟩ _ ht, oc ⟨c, hcN⟩ _ ht]
          rw [setSeg_loc _ _ _ _ (by exact hule)]
          simp only
          rw [setSeg_loc _ _ _ _ (by exact hdle)]
          simp only
          rw [setSeg_loc _ _ _ _ (by exact hcle)]
          simp only
          refine ⟨_, rfl, z1, z2, fun v hv => ?_, fun v hv => ?_⟩
          · simp only [col_u, col_x c hcm]
            cases v with
            | tf => exact d1 .tf trivial
            | q k => exact d1 (.q k) trivial
            | x i k =>
              by_cases hi : c = i
              · simp only [if_pos hi, Option.map_none, Option.getD_none, Option.map_some, Option.getD_some]
                subst hi
                simp [ext, Fin.ofNat_eq_cast]
              · simp only [if_neg hi, Option.map_none, Option.getD_none]
                exact d1 (.x i k) (by simp only [doneV] at hv ⊢; omega)
            | u i k =>
              by_cases hi : c = i
              · simp only [if_pos hi, Option.map_some, Option.getD_some]
                subst hi
                simp [ext]
              · simp only [if_neg hi, Option.map_none, Option.getD_none]
                exact d1 (.u i k) (by simp only [doneV] at hv ⊢; omega)
          · simp only [col_cr c hcN, col_dyn c hcN]
            cases v with
            | int k => exact d2 (.int k) trivial
            | ce k => exact d2 (.ce k) trivial
            | dyn i k =>
              by_cases hi : c = i
              · simp only [if_pos hi, Option.map_none, Option.getD_none, Option.map_some, Option.getD_some]
                subst hi
                simp [ext]
              · simp only [if_neg hi, Option.map_none, Option.getD_none]
                exact d2 (.dyn i k) (by simp only [doneC] at hv ⊢; omega)
            | cr i k =>
              by_cases hi : c = i
              · simp only [if_pos hi, Option.map_some, Option.getD_some]
                subst hi
                simp [ext]
              · simp only [if_neg hi, Option.map_none, Option.getD_none]
                exact d2 (.cr i k) (by simp only [doneC] at hv ⊢; omega)
        obtain ⟨s1, es, y1, y2, f1, f2⟩ := hstep
        rw [es]
        exact ih (c + 1) s1 (by omega) y1 y2 f1 f2
      · have hstep : ∃ s1, sampleStep (nColloc m) o (c, (allNodes env m)[c]) s = some s1 ∧
            s1.1.size = nVars (nColloc m) nx nu nq ∧ s1.2.size = nCons (nColloc m) nx nq ncr nce ∧
            (∀ v : NVar (nColloc m) nx nu nq, doneV (c + 1) v → s1.1.val v.pos = sol.x.val v.pos) ∧
            (∀ v : NCon (nColloc m) nx nq ncr nce, doneC (c + 1) v → s1.2.val v.pos = sol.lambda.val v.pos) := by
          unfold sampleStep
          simp only [ox c _ hcm ht, e1, if_neg hcN]
          refine ⟨_, rfl, z1, z2, fun v hv => ?_, fun v hv => d2 v ?_⟩
          · simp only [col_x c hcm]
            cases v with
            | tf => exact d1 .tf trivial
            | q k => exact d1 (.q k) trivial
            | x i k =>
              by_cases hi : c = i
              · simp only [if_pos hi, Option.map_some, Option.getD_some]
                subst hi
                simp [ext, Fin.ofNat_eq_cast]
              · simp only [if_neg hi, Option.map_none, Option.getD_none]
                exact d1 (.x i k) (by simp only [doneV] at hv ⊢; omega)
            | u i k => exact d1 (.u i k) (by have := i.2; simp only [doneV]; omega)
          · cases v with
            | dyn i k => have := i.2; simp only [doneC]; omega
            | cr i k => have := i.2; simp only [doneC]; omega
            | _ => trivial
        obtain ⟨s1, es, y1, y2, f1, f2⟩ := hstep
        rw [es]
        exact ih (c + 1) s1 (by omega) y1 y2 f1 f2
  obtain ⟨s', es, y1, y2, f1, f2⟩ := loop (nColloc m + 1) 0
    (⟨numX nx nu nq (nColloc m), segSet (qB nx nu nq (nColloc m)) (qL nq) (ext o.Q)
        (segSet (tfB nx nu nq (nColloc m)) 1 (fun _ => o.tf) jx)⟩,
      ⟨numG nx nq ncr nce (nColloc m), segSet (ceB nx nq ncr nce (nColloc m)) nce (ext o.lambda_ce)
        (segSet (qcB nx nq ncr nce (nColloc m)) (qL nq) (ext o.lambda_q) jl)⟩) (by omega) b5 c5
    (fun v hv => by
      simp only [segSet_loc, qL, loc_q, loc_tf]
      cases v with
      | tf => simp [otf, NVar.pos]
      | q k => rw [← eo']; simp [ext, NVar.pos, b2]
      | x i k => exact absurd hv (Nat.not_lt_zero _)
      | u i k => exact absurd hv (Nat.not_lt_zero _))
    (fun v hv => by
      simp only [segSet_loc, qL, loc_ce, loc_int]
      cases v with
      | int k => rw [← eo']; simp [ext, NCon.pos, c2]
      | ce k => rw [← eo']; simp [ext, NCon.pos, c4]
      | dyn i k => exact absurd hv (Nat.not_lt_zero _)
      | cr i k => exact absurd hv (Nat.not_lt_zero _))
  refine ⟨o, ⟨.unknown, 0, s'.1, ⟨numX nx nu nq (nColloc m), fun _ => 0⟩, ⟨numX nx nu nq (nColloc m), fun _ => 0⟩, s'.2, 0⟩, eo, ?_,
    y1.trans hx.symm, fun r hr => ?_, y2.trans hl.symm, fun r hr => ?_, ?_, ?_, rfl, rfl, rfl⟩
  · unfold ocpsolToNlpsol
    simp only
    rw [hnl, List.range_eq_range']
    rw [List.drop_zero] at es
    rw [es]
  · obtain ⟨v, rfl⟩ := NVar.pos_surj (lt_of_lt_of_eq hr hx)
    exact f1 v
  · obtain ⟨v, rfl⟩ := NCon.pos_surj (lt_of_lt_of_eq hr hl)
    exact f2 v
  · simp only [hsz.1]
  · simp only [hsz.1]

/-- A solution on a mesh of three points with final time 2: `x_i = i`-dependent numbers, nonzero multipliers of all kinds. -/
def exNlpSol : NLPSol ℝ :=
  ⟨.optimal, 7, ⟨nVars 3 1 1 1, fun r => r + 2⟩, ⟨nVars 3 1 1 1, fun _ => 5⟩, ⟨nVars 3 1 1 1, fun _ => 6⟩,
    ⟨nCons 3 1 1 1 1, fun r => 3 * r⟩, 4⟩

/-- **C31 is false as stated**: the multipliers of the variable bounds are lost. The solution below meets the hypotheses of
`ocp_nlp_roundtrip_partial`; its `x` and `λ` come back, its `zl` does not. -/
theorem ocp_nlp_roundtrip_loses (jx jl : ℕ → ℝ) :
    ∃ (o : OCPSol ℝ 1 1 1 1 1) (sol' : NLPSol ℝ), nlpsolToOcpsol 1 1 1 1 1 (lowEnv ℝ) exMesh exNlpSol = some o ∧
      ocpsolToNlpsol (lowEnv ℝ) exMesh o jx jl = some sol' ∧
      sol'.x.val 3 = exNlpSol.x.val 3 ∧ sol'.lambda.val 4 = exNlpSol.lambda.val 4 ∧ exNlpSol.x.val 3 ≠ 0 ∧ exNlpSol.lambda.val 4 ≠ 0 ∧
      sol'.zl.val 0 ≠ exNlpSol.zl.val 0 := by
  obtain ⟨o, sol', e, e', -, hx, -, hl, hz, -⟩ := ocp_nlp_roundtrip_partial (nx := 1) (nu := 1) (nq := 1) (ncr := 1) (nce := 1)
    (lowEnv ℝ) lowEnv_lagrange lowEnv_search 1 1 le_rfl exMesh exMesh_valid (fun K h1 h2 => lowEnv_lgr K h1 h2) exNlpSol
    (by rw [exMesh_N]; rfl) (by rw [exMesh_N]; rfl) (by norm_num [exNlpSol]) jx jl
  refine ⟨o, sol', e, e', hx 3 (by simp [exNlpSol, nVars]), hl 4 (by simp [exNlpSol, nCons]), by norm_num [exNlpSol],
    by norm_num [exNlpSol], ?_⟩
  rw [hz]
  norm_num [exNlpSol]

end Verif.NLP
