import Verif.Proofs.OCPNLPCalls
import Verif.Props.MeshNodes

/-! # The nonlinear program: bounds and scaling -/

set_option linter.unusedSectionVars false

namespace Verif.NLP

open Verif.Mesh Verif.Sparse Verif.MeshFn Verif.QP Verif.QPSpec

variable {N nx nu nq ncr nce : ℕ}

theorem segSet_loc {α : Type*} (b l : ℕ) (g : ℕ → α) (v : ℕ → α) (r : ℕ) :
    segSet b l g v r = ((loc b l r).map g).getD (v r) := by
  unfold segSet loc
  split <;> rfl

theorem fold_before {F : Type*} [Field F] (L : List (ℕ × F)) (B n : ℕ) (h : F → Ext F → Ext F) (v : ℕ → Ext F) (r : ℕ) (hr : r < B) :
    L.foldl (fun v p => segMap (B + p.1 * n) n (h p.2) v) v r = v r := by
  induction L generalizing v with
  | nil => rfl
  | cons p L ih =>
    rw [List.foldl_cons, ih, segMap, if_neg (by omega)]

theorem fold_at {F : Type*} [Field F] (B n : ℕ) (h : F → Ext F → Ext F) (c : ℕ) (s : ℕ) (W : List F) (v : ℕ → Ext F) (i k : ℕ) (hk : k < n)
    (hW : c ≤ W.length) :
    ((List.range' s c).zip W).foldl (fun v p => segMap (B + p.1 * n) n (h p.2) v) v (B + (n * i + k)) =
      if s ≤ i ∧ i < s + c then h (W.getD (i - s) 0) (v (B + (n * i + k))) else v (B + (n * i + k)) := by
  induction c generalizing s W v with
  | zero => simp
  | succ c ih =>
    cases W with
    | nil => simp at hW
    | cons w W =>
      rw [List.range'_succ, List.zip_cons_cons, List.foldl_cons, ih _ _ _ (by simpa using hW)]
      have hseg : segMap (B + s * n) n (h w) v (B + (n * i + k)) = if s = i then h w (v (B + (n * i + k))) else v (B + (n * i + k)) := by
        unfold segMap
        by_cases hsi : s = i
        · subst hsi
          rw [if_pos rfl, if_pos]
          constructor
          · nlinarith
          · have := Nat.mul_comm s n; omega
        · rw [if_neg hsi, if_neg]
          rintro ⟨h1, h2⟩
          exact hsi (mul_block (n := n) (b := k) hk (by have := Nat.mul_comm s n; omega) (by have := Nat.mul_comm s n; omega)).symm
      simp only
      rw [hseg]
      by_cases hsi : s = i
      · subst hsi
        simp
      · rw [if_neg hsi]
        by_cases hin : s + 1 ≤ i ∧ i < s + 1 + c
        · rw [if_pos hin, if_pos (by omega), show i - s = (i - (s + 1)) + 1 by omega, List.getD_cons_succ]
        · rw [if_neg hin, if_neg (by omega)]

/-- The bounds, by constraint. -/
theorem conBounds_at (env : Mesh.Env ℝ) (m : Mesh ℝ) (cr : Fin ncr → Ext ℝ) (ce : Fin nce → Ext ℝ) (junk : ℕ → Ext ℝ)
    (c : NCon (nColloc m) nx nq ncr nce) :
    conBounds env m nx nq cr ce junk c.pos = match c with
      | .dyn _ _ => .fin 0
      | .int _ => .fin 0
      | .cr i k => Ext.scale (wScaling env m * wAt env m i) (cr k)
      | .ce k => ce k := by
  obtain ⟨c1, c2, c3, c4, c5⟩ := cbegs nx nq ncr nce (nColloc m)
  unfold conBounds
  simp only [segSet_loc, loc_ce]
  cases c with
  | ce k => simp [extB]
  | cr i k =>
    have hp : (NCon.cr i k : NCon (nColloc m) nx nq ncr nce).pos = crB nx nq ncr nce (nColloc m) + (ncr * (i : ℕ) + k) := by
      rw [c3]; simp only [NCon.pos]; omega
    simp only [Option.map_none, Option.getD_none]
    have := fold_at (crB nx nq ncr nce (nColloc m)) ncr (fun w => Ext.scale (wScaling env m * w)) (nColloc m) 0 (allWeights env m)
      (segSet (crB nx nq ncr nce (nColloc m)) (crL ncr (nColloc m)) (fun r => extB cr (r % ncr))
        (segSet (qcB nx nq ncr nce (nColloc m)) (qL nq) (fun _ => .fin 0)
          (segSet (dB nx nq ncr nce (nColloc m)) (dL nx (nColloc m)) (fun _ => .fin 0) junk))) i k k.2 (weights_length env m)
    rw [← List.range_eq_range', if_pos ⟨Nat.zero_le _, by omega⟩, ← hp, segSet_loc, crL, loc_cr] at this
    refine this.trans ?_
    · simp only [Option.map_some, Option.getD_some, Nat.sub_zero, wAt, extB]
      rw [dif_pos (Nat.mod_lt _ (by omega))]
      congr 2
      apply Fin.ext
      simp only [Nat.mul_add_mod, Nat.mod_eq_of_lt k.2]
  | dyn i k =>
    simp only [Option.map_none, Option.getD_none]
    rw [fold_before _ _ _ (fun w => Ext.scale (wScaling env m * w))]
    · simp [segSet_loc, crL, qL, dL, loc_cr, loc_int, loc_dyn]
    · have := row_le i k
      rw [c3]; simp only [NCon.pos]; omega
  | int k =>
    simp only [Option.map_none, Option.getD_none]
    rw [fold_before _ _ _ (fun w => Ext.scale (wScaling env m * w))]
    · simp [segSet_loc, crL, qL, dL, loc_cr, loc_int, loc_dyn]
    · rw [c3]; simp only [NCon.pos]; omega

theorem xlower_at (v : NVar N nx nu nq) : (xlower nx nu nq N v.pos : Ext ℝ) = match v with | .tf => .fin 0 | _ => .neg := by
  unfold xlower
  rw [segSet_loc, tfL, loc_tf]
  cases v <;> rfl

theorem foldl_max_le (l : List ℝ) (a : ℝ) : a ≤ l.foldl max a := by
  induction l generalizing a with
  | nil => exact le_rfl
  | cons b l ih => exact (le_max_left a b).trans (ih _)

theorem wScaling_pos (env : Mesh.Env ℝ) (m : Mesh ℝ) : 0 < wScaling env m := by
  have := foldl_max_le (allWeights env m) (1 / 1000000)
  unfold wScaling
  exact one_div_pos.2 (lt_of_lt_of_le (by norm_num) this)

theorem wAt_pos (env : Mesh.Env ℝ) {Kmin Kmax : ℕ} {m : Mesh ℝ} (hm : Valid Kmin Kmax m)
    (hL : ∀ K, Kmin ≤ K → K ≤ Kmax + 1 → IsLGR env K) (i : Fin (nColloc m)) : 0 < wAt env m i := by
  have hi := lt_of_lt_of_eq i.2 (nColloc_eq m)
  unfold wAt
  rw [allWeights_eq env m hm.ne_nil]
  have hlen : ((spans 1 m).flatMap (localWeights env)).length = points m := by rw [flatMap_length_localWeights, points]
  have hmem : (((spans 1 m).flatMap (localWeights env)) ++ [0]).getD i 0 ∈ (spans 1 m).flatMap (localWeights env) := by
    rw [List.getD_eq_getElem?_getD, List.getElem?_append_left (by omega), List.getElem?_eq_getElem (by omega)]
    exact List.getElem_mem _
  obtain ⟨p, hp, hw⟩ := List.mem_flatMap.1 hmem
  have hd := hm.degree _ (mem_spans_fst hp)
  have hK := hL _ hd.1 hd.2
  have ho := (spans_ordered hm.increasing hm.below).1 p hp
  simp only [localWeights, List.mem_map, List.mem_range] at hw
  obtain ⟨j, hj, hw⟩ := hw
  rw [← hw]
  have := hK.positive j hj
  have h2 := sub_pos.2 ho.1
  positivity

theorem lower_scale {s : ℝ} (hs : 0 < s) (e : Ext ℝ) (a : ℝ) : lower (Ext.scale s e) (s * a) ↔ lower e a := by
  cases e with
  | fin b => exact mul_le_mul_iff_right₀ hs
  | _ => rfl

theorem upper_scale {s : ℝ} (hs : 0 < s) (e : Ext ℝ) (a : ℝ) : upper (Ext.scale s e) (s * a) ↔ upper e a := by
  cases e with
  | fin b => exact mul_le_mul_iff_right₀ hs
  | _ => rfl

theorem nodePt_onMesh (tau : ℝ) (i : Fin N) (z : NVar N nx nu nq → ℝ) :
    nodePt tau i (onMesh z) = pt (z .tf * tau) (fun k => z (.x i.castSucc k)) fun k => z (.u i k) := by
  funext a
  cases a <;> simp [nodePt, onMesh, pt]

/-! ### Histories -/

theorem history_inv (env : Mesh.Env ℝ) (m : Mesh ℝ) (hm : m ≠ []) (hK : ∀ v ∈ m, 1 ≤ v.K) (hq : 1 ≤ nq)
    (ocp : OCP ℝ nx nu nq ncr nce) (l : List Call)
    (hl : ∀ c ∈ l, c.Ok (nVars (nColloc m) nx nu nq) (nCons (nColloc m) nx nq ncr nce))
    (hd : (∀ c ∈ l, ∃ x, c = .g x) ∨ IsDrOCP ocp) : ∃ s, history env ocp m l = some s ∧ Inv nx nu nq ncr nce (nColloc m) s := by
  have key : ∀ s, Inv nx nu nq ncr nce (nColloc m) s →
      ∃ s', iter (Call.run env ocp m) l s = some s' ∧ Inv nx nu nq ncr nce (nColloc m) s' := by
    induction l with
    | nil => exact fun s hs => ⟨s, rfl, hs⟩
    | cons c l ih =>
      intro s hs
      have hN := nColloc_pos hm hK
      obtain ⟨s1, e1, h1⟩ : ∃ s1, Call.run env ocp m c s = some s1 ∧ Inv nx nu nq ncr nce (nColloc m) s1 := by
        have hc := hl c (by simp)
        cases c with
        | g x =>
          obtain ⟨s1, e, h, -⟩ := geval_spec env m hm hK ocp (IsVec.of_size hc) hs
          exact ⟨s1, e, h⟩
        | df x =>
          have hd : IsDrOCP ocp := hd.resolve_left fun h => by obtain ⟨y, hy⟩ := h (.df x) (by simp); cases hy
          obtain ⟨s1, e, h, -⟩ := dfdx_spec m hN ocp hd.theta (IsVec.of_size hc) hs
          exact ⟨s1, e, h⟩
        | d2f x =>
          have hd : IsDrOCP ocp := hd.resolve_left fun h => by obtain ⟨y, hy⟩ := h (.d2f x) (by simp); cases hy
          obtain ⟨s1, e, h, -⟩ := d2fdx2_spec m hN ocp hd.theta (IsVec.of_size hc) hs
          exact ⟨s1, e, h⟩
        | dg x =>
          have hd : IsDrOCP ocp := hd.resolve_left fun h => by obtain ⟨y, hy⟩ := h (.dg x) (by simp); cases hy
          obtain ⟨s1, e, h, -⟩ := dgdx_spec env m hm hK ocp hd (IsVec.of_size hc) hs
          exact ⟨s1, e, h⟩
        | d2g x y =>
          have hd : IsDrOCP ocp := hd.resolve_left fun h => by obtain ⟨z, hz⟩ := h (.d2g x y) (by simp); cases hz
          obtain ⟨s1, e, h, -⟩ := d2gdx2_spec env m hm hK hq ocp hd (IsVec.of_size hc.1) hc.2 hs
          exact ⟨s1, e, h⟩
      obtain ⟨s2, e2, h2⟩ := ih (fun c hc => hl c (List.mem_cons_of_mem _ hc))
        (hd.imp_left fun h c hc => h c (List.mem_cons_of_mem _ hc)) s1 h1
      refine ⟨s2, ?_, h2⟩
      rw [iter, e1]
      exact e2
  exact key _ (init_inv _)

end Verif.NLP
