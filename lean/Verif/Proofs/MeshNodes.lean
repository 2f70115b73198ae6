import Verif.Proofs.Mesh
import Mathlib.Algebra.Polynomial.Eval.SMul
import Mathlib.Tactic.LinearCombination

/-! # Mesh nodes and weights: lemmas -/

set_option linter.unusedSectionVars false

namespace Verif.Mesh

open Polynomial

variable {F : Type*} [Field F] [LinearOrder F] [IsStrictOrderedRing F]

theorem spans_getElem? (m : Mesh F) (i : ℕ) : (spans 1 m)[i]? = m[i]?.map fun v => (v, tauf m i) := by
  induction m generalizing i with
  | nil => simp [spans]
  | cons v m ih =>
    cases m with
    | nil => cases i <;> simp [spans, tauf]
    | cons w r =>
      cases i with
      | zero => simp [spans, tauf]
      | succ i =>
        rw [spans]
        simp only [List.getElem?_cons_succ]
        rw [ih]
        simp [tauf]

/-- The nodes that one interval contributes. -/
def localNodes (env : Env F) (p : Ival F × F) : List F :=
  (List.range p.1.K).map fun j => p.1.tau0 + (p.2 - p.1.tau0) / 2 * (env.node p.1.K j + 1)

/-- The weights that one interval contributes. -/
def localWeights (env : Env F) (p : Ival F × F) : List F :=
  (List.range p.1.K).map fun j => (p.2 - p.1.tau0) / 2 * env.weight p.1.K j

theorem range_flatMap {α β : Type*} (l : List α) (g : ℕ → List β) (h : α → List β)
    (hg : ∀ i p, l[i]? = some p → g i = h p) : (List.range l.length).flatMap g = l.flatMap h := by
  induction l using List.reverseRecOn with
  | nil => simp
  | append_singleton l p ih =>
    have h1 : (List.range l.length).flatMap g = l.flatMap h := by
      apply ih
      intro i q hq
      exact hg i q (by rw [List.getElem?_append_left (List.getElem?_eq_some_iff.1 hq).1]; exact hq)
    have h2 := hg l.length p (by simp)
    simp [List.range_succ, h1, h2]

theorem range_flatMap_last {α β : Type*} (l : List α) (hl : l ≠ []) (g : ℕ → List β) (h : α → List β) (x : β)
    (hg : ∀ i p, l[i]? = some p → g i = if i + 1 < l.length then h p else h p ++ [x]) :
    (List.range l.length).flatMap g = l.flatMap h ++ [x] := by
  rcases List.eq_nil_or_concat l with rfl | ⟨l, p, rfl⟩
  · exact absurd rfl hl
  · rw [List.concat_eq_append] at hg ⊢
    have h1 : (List.range l.length).flatMap g = l.flatMap h := by
      apply range_flatMap
      intro i q hq
      have hi := (List.getElem?_eq_some_iff.1 hq).1
      rw [hg i q (by rw [List.getElem?_append_left hi]; exact hq), if_pos (by simpa using hi)]
    have h2 := hg l.length p (by simp)
    simp [List.range_succ, h1, h2]

theorem take_range_succ_map {β : Type*} (g : ℕ → β) (k : ℕ) :
    ((List.range (k + 1)).map g).take k = (List.range k).map g := by
  rw [← List.map_take, List.take_range]; simp

theorem allNodes_eq (env : Env F) (m : Mesh F) (hm : m ≠ []) :
    allNodes env m = (spans 1 m).flatMap (localNodes env) ++ [1] := by
  have hl := spans_length 1 m
  unfold allNodes
  rw [← hl]
  apply range_flatMap_last
  · intro h; rw [h] at hl; exact hm (List.eq_nil_of_length_eq_zero hl.symm)
  · intro i p hp
    rw [spans_getElem?] at hp
    cases hv : m[i]? with
    | none => simp [hv] at hp
    | some v =>
      rw [hv] at hp
      obtain rfl := Option.some.inj hp
      unfold intervalNodes nTake localNodes
      rw [hv, hl]
      simp only
      split_ifs with h
      · rw [take_range_succ_map]
        apply List.map_congr_left
        intro j hj
        simp [nodeExt, List.mem_range.1 hj]
      · rw [List.take_of_length_le (by simp), List.range_succ, List.map_append]
        congr 1
        · apply List.map_congr_left
          intro j hj
          simp [nodeExt, List.mem_range.1 hj]
        · have : tauf m i = 1 := by
            unfold tauf
            rw [List.getElem?_eq_none (by omega)]
          simp only [nodeExt, this, lt_irrefl, if_false, List.map_cons, List.map_nil, List.cons.injEq, and_true]
          ring

theorem allWeights_eq (env : Env F) (m : Mesh F) (hm : m ≠ []) :
    allWeights env m = (spans 1 m).flatMap (localWeights env) ++ [0] := by
  have hl := spans_length 1 m
  unfold allWeights
  rw [← hl]
  apply range_flatMap_last
  · intro h; rw [h] at hl; exact hm (List.eq_nil_of_length_eq_zero hl.symm)
  · intro i p hp
    rw [spans_getElem?] at hp
    cases hv : m[i]? with
    | none => simp [hv] at hp
    | some v =>
      rw [hv] at hp
      obtain rfl := Option.some.inj hp
      unfold intervalWeights nTake localWeights
      rw [hv, hl]
      simp only
      split_ifs with h
      · rw [take_range_succ_map]
        apply List.map_congr_left
        intro j hj
        simp [weightExt, List.mem_range.1 hj]
      · rw [List.take_of_length_le (by simp), List.range_succ, List.map_append]
        congr 1
        · apply List.map_congr_left
          intro j hj
          simp [weightExt, List.mem_range.1 hj]
        · simp [weightExt]

theorem Valid.ne_nil {Kmin Kmax : ℕ} {m : Mesh F} (h : Valid Kmin Kmax m) : m ≠ [] := by
  rintro rfl; simpa using h.starts

theorem mem_spans_fst {b : F} {m : Mesh F} {p : Ival F × F} (h : p ∈ spans b m) : p.1 ∈ m := by
  have := List.mem_map_of_mem (f := Prod.fst) h
  rwa [spans_fst] at this

/-- Spans are non-empty, ordered and end by `b`. -/
theorem spans_ordered {b : F} {m : Mesh F} (hi : (m.map Ival.tau0).Pairwise (· < ·)) (hb : ∀ v ∈ m, v.tau0 < b) :
    (∀ p ∈ spans b m, p.1.tau0 < p.2 ∧ p.2 ≤ b) ∧ (spans b m).Pairwise (fun p q => p.2 ≤ q.1.tau0) := by
  induction m with
  | nil => simp [spans]
  | cons v m ih =>
    cases m with
    | nil => simpa [spans] using hb v (by simp)
    | cons w r =>
      have hi' := hi
      rw [List.map_cons, List.pairwise_cons] at hi'
      obtain ⟨h1, h2⟩ := ih hi'.2 (fun u hu => hb u (List.mem_cons_of_mem _ hu))
      rw [spans]
      constructor
      · intro p hp
        rcases List.mem_cons.1 hp with rfl | hp
        · exact ⟨hi'.1 _ (by simp), (hb w (by simp)).le⟩
        · exact h1 p hp
      · rw [List.pairwise_cons]
        refine ⟨?_, h2⟩
        intro p hp
        rcases List.mem_cons.1 (mem_spans_fst hp) with h | h
        · rw [h]
        · have := hi'.2
          rw [List.map_cons, List.pairwise_cons] at this
          exact (this.1 _ (List.mem_map_of_mem h)).le

theorem localNodes_bounds {env : Env F} {p : Ival F × F} (hK : IsLGR env p.1.K) (hp : p.1.tau0 < p.2) :
    (∀ x ∈ localNodes env p, p.1.tau0 ≤ x ∧ x < p.2) ∧ (localNodes env p).Pairwise (· < ·) := by
  have hd : 0 < (p.2 - p.1.tau0) / 2 := by linarith
  constructor
  · intro x hx
    simp only [localNodes, List.mem_map, List.mem_range] at hx
    obtain ⟨j, hj, rfl⟩ := hx
    have h1 := hK.below j hj
    have h2 : -1 ≤ env.node p.1.K j := by
      rcases Nat.eq_zero_or_pos j with rfl | h0
      · rw [hK.first]
      · have := hK.increasing 0 j h0 hj
        rw [hK.first] at this; exact this.le
    constructor <;> nlinarith
  · unfold localNodes
    rw [List.pairwise_map]
    refine List.pairwise_lt_range.imp_of_mem ?_
    intro i j _ hj hij
    have := hK.increasing i j hij (List.mem_range.1 hj)
    nlinarith

theorem flatMap_length_localNodes (env : Env F) (b : F) (m : Mesh F) :
    ((spans b m).flatMap (localNodes env)).length = points m := by
  rw [List.length_flatMap]
  unfold points
  conv_rhs => rw [← spans_fst b m]
  rw [List.map_map]
  congr 1
  apply List.map_congr_left
  intro p _
  simp [localNodes]

theorem flatMap_length_localWeights (env : Env F) (b : F) (m : Mesh F) :
    ((spans b m).flatMap (localWeights env)).length = points m := by
  rw [List.length_flatMap]
  unfold points
  conv_rhs => rw [← spans_fst b m]
  rw [List.map_map]
  congr 1
  apply List.map_congr_left
  intro p _
  simp [localWeights]

theorem allNodes_pairwise {env : Env F} {Kmin Kmax : ℕ} {m : Mesh F} (h : Valid Kmin Kmax m)
    (hL : ∀ K, Kmin ≤ K → K ≤ Kmax + 1 → IsLGR env K) : (allNodes env m).Pairwise (· < ·) := by
  obtain ⟨h1, h2⟩ := spans_ordered h.increasing h.below
  have hl : ∀ p ∈ spans 1 m, IsLGR env p.1.K := fun p hp => by
    have := h.degree _ (mem_spans_fst hp)
    exact hL _ this.1 this.2
  rw [allNodes_eq env m h.ne_nil, List.pairwise_append, List.pairwise_flatMap]
  refine ⟨⟨fun p hp => (localNodes_bounds (hl p hp) (h1 p hp).1).2, ?_⟩, by simp, ?_⟩
  · refine h2.imp_of_mem ?_
    intro p q hp hq hpq x hx y hy
    exact lt_of_lt_of_le ((localNodes_bounds (hl p hp) (h1 p hp).1).1 x hx).2
      (le_trans hpq ((localNodes_bounds (hl q hq) (h1 q hq).1).1 y hy).1)
  · intro x hx y hy
    rw [List.mem_singleton.1 hy]
    obtain ⟨p, hp, hx⟩ := List.mem_flatMap.1 hx
    exact lt_of_lt_of_le ((localNodes_bounds (hl p hp) (h1 p hp).1).1 x hx).2 (h1 p hp).2

/-! ### Quadrature -/

theorem local_quad {env : Env F} {p : Ival F × F} (hK : IsLGR env p.1.K) (P : F[X])
    (hP : P.natDegree ≤ 2 * p.1.K - 1) :
    (((localNodes env p).zip (localWeights env p)).map fun x => x.2 * P.derivative.eval x.1).sum =
      P.eval p.2 - P.eval p.1.tau0 := by
  set a := p.1.tau0
  set h := (p.2 - a) / 2 with hh
  let Q : F[X] := P.comp (C h * X + C (a + h))
  have hQ : Q.natDegree ≤ 2 * p.1.K - 1 := by
    calc Q.natDegree ≤ P.natDegree * (C h * X + C (a + h)).natDegree := natDegree_comp_le
      _ ≤ P.natDegree * 1 := Nat.mul_le_mul_left _ natDegree_linear_le
      _ ≤ _ := by simpa using hP
  have := hK.exact Q hQ
  have e1 : Q.eval 1 = P.eval p.2 := by
    simp only [Q, eval_comp, eval_add, eval_mul, eval_C, eval_X]
    congr 1; rw [hh]; ring
  have e2 : Q.eval (-1) = P.eval a := by
    simp only [Q, eval_comp, eval_add, eval_mul, eval_C, eval_X]
    congr 1; ring
  have e3 : ∀ x, Q.derivative.eval x = h * P.derivative.eval (a + h * (x + 1)) := by
    intro x
    simp only [Q, derivative_comp, eval_mul, eval_comp, eval_add, eval_C, eval_X, derivative_add, derivative_mul,
      derivative_C, derivative_X, zero_mul, mul_one, zero_add, add_zero]
    congr 2; ring
  rw [e1, e2] at this
  rw [← this, localNodes, localWeights, List.zip_map', List.map_map]
  have : ∀ f : ℕ → F, ((List.range p.1.K).map f).sum = ∑ j ∈ Finset.range p.1.K, f j := fun f => rfl
  rw [this]
  apply Finset.sum_congr rfl
  intro j _
  rw [e3]
  simp only [Function.comp_apply]
  ring

/-- Weighted sum of values at the nodes. -/
def quad (xs ws : List F) (f : F → F) : F := ((xs.zip ws).map fun x => x.2 * f x.1).sum

theorem quad_append {xs ws xs' ws' : List F} (h : xs.length = ws.length) (f : F → F) :
    quad (xs ++ xs') (ws ++ ws') f = quad xs ws f + quad xs' ws' f := by
  simp [quad, List.zip_append h]

theorem quad_flatMap {α : Type*} (l : List α) (g h : α → List F) (hl : ∀ a ∈ l, (g a).length = (h a).length) (f : F → F) :
    quad (l.flatMap g) (l.flatMap h) f = (l.map fun a => quad (g a) (h a) f).sum := by
  induction l with
  | nil => simp [quad]
  | cons a l ih =>
    simp only [List.flatMap_cons, List.map_cons, List.sum_cons]
    rw [quad_append (hl a (by simp)), ih (fun b hb => hl b (List.mem_cons_of_mem _ hb))]

theorem quad_congr {xs ws : List F} {f g : F → F} (h : ∀ x ∈ xs, f x = g x) : quad xs ws f = quad xs ws g := by
  unfold quad
  congr 1
  apply List.map_congr_left
  intro x hx
  rw [h x.1 (List.of_mem_zip hx).1]

theorem mesh_quad {env : Env F} {Kmin Kmax : ℕ} {m : Mesh F} (hm : Valid Kmin Kmax m)
    (hL : ∀ K, Kmin ≤ K → K ≤ Kmax + 1 → IsLGR env K) (f : F → F) (P : Ival F × F → F[X])
    (hP : ∀ p ∈ spans 1 m, (P p).natDegree ≤ 2 * p.1.K - 1)
    (hf : ∀ p ∈ spans 1 m, ∀ x, p.1.tau0 ≤ x → x < p.2 → f x = (P p).derivative.eval x) :
    quad (allNodes env m) (allWeights env m) f =
      ((spans 1 m).map fun p => (P p).eval p.2 - (P p).eval p.1.tau0).sum := by
  obtain ⟨h1, -⟩ := spans_ordered hm.increasing hm.below
  have hl : ∀ p ∈ spans 1 m, IsLGR env p.1.K := fun p hp => by
    have := hm.degree _ (mem_spans_fst hp)
    exact hL _ this.1 this.2
  rw [allNodes_eq env m hm.ne_nil, allWeights_eq env m hm.ne_nil,
    quad_append (by rw [flatMap_length_localNodes, flatMap_length_localWeights]),
    quad_flatMap _ _ _ (fun p _ => by simp [localNodes, localWeights])]
  have : quad [1] [0] f = 0 := by simp [quad]
  rw [this, add_zero]
  congr 1
  apply List.map_congr_left
  intro p hp
  rw [quad_congr (g := fun x => (P p).derivative.eval x)]
  · exact local_quad (hl p hp) (P p) (hP p hp)
  · intro x hx
    obtain ⟨ha, hb⟩ := (localNodes_bounds (hl p hp) (h1 p hp).1).1 x hx
    exact hf p hp x ha hb

/-- Differences over the spans telescope. -/
theorem spans_telescope (g : F → F) (b : F) (m : Mesh F) :
    ((spans b m).map fun p => g p.2 - g p.1.tau0).sum = if m = [] then 0 else g b - g (headOr b m) := by
  induction m with
  | nil => simp [spans]
  | cons v m ih =>
    cases m with
    | nil => simp [spans, headOr]
    | cons w r =>
      rw [spans, List.map_cons, List.sum_cons, ih]
      simp [headOr]

end Verif.Mesh
