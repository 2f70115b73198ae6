import Verif.Proofs.MeshWarm
import Verif.Model.MeshRefine
import Mathlib.Algebra.Order.BigOperators.Group.List

/-! # Refinement by errors: spans, points, degrees -/

namespace Verif.Mesh

section

variable {F : Type*} [Field F] [LinearOrder F] [IsStrictOrderedRing F]

theorem spans_append (b : F) (A B : Mesh F) : spans b (A ++ B) = spans (headOr b B) A ++ spans b B := by
  induction A with
  | nil => rfl
  | cons v A ih =>
    cases A with
    | nil => cases B with
      | nil => rfl
      | cons w B => rfl
    | cons w A =>
      have := ih
      simp only [List.cons_append, spans] at this ⊢
      rw [this]

theorem spans_flatMap (env : Env F) (Kmin Kmax : ℕ) (target : F) (b : F) (m : Mesh F) (errs : List F) (hl : m.length = errs.length) :
    spans b (((spans b m).zip errs).flatMap (refinedByError env Kmin Kmax target)) =
      ((spans b m).zip errs).flatMap fun x => spans x.1.2 (refinedByError env Kmin Kmax target x) := by
  have head : ∀ (m : Mesh F) (errs : List F), m.length = errs.length →
      headOr b (((spans b m).zip errs).flatMap (refinedByError env Kmin Kmax target)) = headOr b m := by
    intro m errs hl
    have key : ∀ (x : (Ival F × F) × F) (B : Mesh F), headOr b (refinedByError env Kmin Kmax target x ++ B) = x.1.1.tau0 := by
      rintro ⟨⟨v, c⟩, e⟩ B
      have := refinedByError_head env Kmin Kmax target c v e B
      cases h : refinedByError env Kmin Kmax target ((v, c), e) ++ B with
      | cons w _ => rw [h] at this; exact this
      | nil =>
        have h0 : refinedByError env Kmin Kmax target ((v, c), e) = [] := by
          have := congrArg List.length h
          simp only [List.length_append, List.length_nil] at this
          exact List.eq_nil_of_length_eq_zero (by omega)
        have h2 := refinedByError_head env Kmin Kmax target c v e [⟨0, v.tau0 + 1⟩]
        rw [h0] at h2
        simp [headOr] at h2
    cases m with
    | nil => simp [spans, headOr]
    | cons v m =>
      cases errs with
      | nil => simp at hl
      | cons e errs =>
        cases m with
        | nil => simp only [spans, List.zip_cons_cons, List.flatMap_cons, key]; rfl
        | cons w m => simp only [spans, List.zip_cons_cons, List.flatMap_cons, key]; rfl
  induction m generalizing errs with
  | nil => simp [spans]
  | cons v m ih =>
    cases errs with
    | nil => simp at hl
    | cons e errs =>
      have hl' : m.length = errs.length := by simpa using hl
      cases m with
      | nil =>
        obtain rfl : errs = [] := List.eq_nil_of_length_eq_zero hl'.symm
        simp [spans]
      | cons w m =>
        have h := ih errs hl'
        have hh := head (w :: m) errs hl'
        simp only [spans, List.zip_cons_cons, List.flatMap_cons] at h hh ⊢
        rw [spans_append, h, hh]
        rfl

/-- Where the pieces of one interval lie, and their degrees. -/
theorem piece_inside {env : Env F} {Kmin Kmax : ℕ} {target : F} {v : Ival F} {b e : F} (hab : v.tau0 < b) {p : Ival F × F}
    (hp : p ∈ spans b (refinedByError env Kmin Kmax target ((v, b), e))) : v.tau0 ≤ p.1.tau0 ∧ p.2 ≤ b ∧
      (p.1.K = Kmin ∨ v.K ≤ p.1.K) ∧ ((target < e → v.K = Kmin ∨ (v.K + env.growth v.K e target ≤ Kmax ∧ v.K ≤ Kmax)) → v.K ≤ p.1.K) ∧
      (Kmin ≤ Kmax → v.K ≤ Kmax → p.1.K ≤ Kmax) := by
  unfold refinedByError refined at hp
  simp only at hp
  split_ifs at hp with h1 h2 h3
  · rw [equalParts_spans _ _ _ (by omega)] at hp
    simp only [List.mem_map, List.mem_range] at hp
    obtain ⟨k, hk, rfl⟩ := hp
    obtain ⟨n, hn⟩ : ∃ n, max 2 ((v.K + env.growth v.K e target + Kmin - 1) / Kmin) = n := ⟨_, rfl⟩
    rw [hn] at hk ⊢
    have hn' : (0 : F) < n := by exact_mod_cast (by omega : 0 < n)
    have hd : 0 < (b - v.tau0) / (n : F) := div_pos (by linarith) hn'
    have h4 : (k : F) + 1 ≤ n := by exact_mod_cast hk
    have h5 : (n : F) * ((b - v.tau0) / n) = b - v.tau0 := by field_simp
    have h6 : (0 : F) ≤ k := Nat.cast_nonneg k
    refine ⟨by simp only; nlinarith, by simp only; nlinarith, ?_, fun h => ?_, fun h7 h8 => ?_⟩
    · simp only; split_ifs
      · exact Or.inr le_rfl
      · exact Or.inl rfl
    · simp only; split_ifs
      · exact le_rfl
      · rcases h h1 with h | h
        · exact h.le
        · omega
    · simp only; split_ifs <;> assumption
  · obtain rfl : p = (v, b) := by simpa [spans] using hp
    exact ⟨le_rfl, le_rfl, Or.inr le_rfl, fun _ => le_rfl, fun _ h => h⟩
  · obtain rfl : p = ((⟨v.K + env.growth v.K e target, v.tau0⟩ : Ival F), b) := by simpa [spans] using hp
    exact ⟨le_rfl, le_rfl, Or.inr (by simp), fun _ => by simp, fun _ _ => by simp only; omega⟩
  · obtain rfl : p = (v, b) := by simpa [spans] using hp
    exact ⟨le_rfl, le_rfl, Or.inr le_rfl, fun _ => le_rfl, fun _ h => h⟩

theorem points_flatMap {α : Type*} (l : List α) (g : α → Mesh F) : points (l.flatMap g) = (l.map fun a => points (g a)).sum := by
  induction l with
  | nil => simp [points]
  | cons a l ih =>
    rw [List.flatMap_cons, List.map_cons, List.sum_cons, ← ih]
    simp [points]

theorem points_zip (m : Mesh F) (errs : List F) (hl : m.length = errs.length) :
    points m = (((spans 1 m).zip errs).map fun x => x.1.1.K).sum := by
  have : ((spans 1 m).zip errs).map (fun x => x.1.1.K) = m.map Ival.K := by
    conv_rhs => rw [← spans_fst 1 m]
    rw [List.map_map]
    rw [show (fun x : (Ival F × F) × F => x.1.1.K) = (Ival.K ∘ Prod.fst) ∘ Prod.fst from rfl, ← List.map_map, List.map_fst_zip]
    rw [spans_length, hl]
  rw [points, this]

/-- Refinement adds a collocation point whenever one error is above the target. -/
theorem refine_grows {env : Env F} (hg : GrowthPos env) {Kmin Kmax : ℕ} (h1 : 2 ≤ Kmin) {m m' : Mesh F} (hm : Valid Kmin Kmax m)
    {errs : List F} {target : F} (ht : 0 < target) (he : ∃ e ∈ errs, target < e)
    (hr : refineErrors env Kmin Kmax m errs target = some m') : points m < points m' := by
  have hl : m.length = errs.length := by
    by_contra h
    simp [refineErrors, h] at hr
  rw [refineErrors_eq env Kmin Kmax (by omega) m errs target hl] at hr
  obtain rfl := Option.some.inj hr
  rw [points_flatMap, points_zip m errs hl]
  have low : ∀ x ∈ (spans 1 m).zip errs, Kmin ≤ x.1.1.K := fun x hx =>
    (hm.degree _ (mem_spans_fst (List.of_mem_zip hx).1)).1
  apply List.sum_lt_sum
  · intro x hx
    unfold refinedByError
    split_ifs with h
    · exact (refine_errors_adds_points env hg Kmin Kmax (by omega) x.1.1 x.1.2 x.2 target (low x hx) (by have := low x hx; omega) ht h).le
    · simp [points]
  · obtain ⟨e, hmem, hlt⟩ := he
    obtain ⟨i, hi, rfl⟩ := List.getElem_of_mem hmem
    have hi2 : i < ((spans 1 m).zip errs).length := by
      rw [List.length_zip, spans_length, hl]; omega
    refine ⟨((spans 1 m).zip errs)[i], List.getElem_mem hi2, ?_⟩
    have hx := List.getElem_mem hi2
    have e2 : ((spans 1 m).zip errs)[i].2 = errs[i] := by simp
    unfold refinedByError
    rw [if_pos (by rw [e2]; exact hlt)]
    exact refine_errors_adds_points env hg Kmin Kmax (by omega) _ _ _ target (low _ hx) (by have := low _ hx; omega) ht (by rw [e2]; exact hlt)

theorem refine_degrees {env : Env F} {Kmin Kmax : ℕ} (h1 : 1 ≤ Kmin) (h2 : Kmin ≤ Kmax) {m m' : Mesh F} (hm : Valid Kmin Kmax m)
    (hd : ∀ v ∈ m, v.K ≤ Kmax) {errs : List F} {target : F} (hr : refineErrors env Kmin Kmax m errs target = some m') :
    ∀ v ∈ m', v.K ≤ Kmax := by
  have hl : m.length = errs.length := by
    by_contra h
    simp [refineErrors, h] at hr
  rw [refineErrors_eq env Kmin Kmax h1 m errs target hl] at hr
  obtain rfl := Option.some.inj hr
  intro v hv
  rw [← spans_fst 1 (((spans 1 m).zip errs).flatMap _), spans_flatMap env Kmin Kmax target 1 m errs hl] at hv
  obtain ⟨p, hp, rfl⟩ := List.mem_map.1 hv
  obtain ⟨x, hx, hpx⟩ := List.mem_flatMap.1 hp
  have hxm := (List.of_mem_zip hx).1
  exact (piece_inside ((spans_ordered hm.increasing hm.below).1 _ hxm).1 hpx).2.2.2.2 h2 (hd _ (mem_spans_fst hxm))

theorem lt_foldl_max (t e : F) (es : List F) : t < es.foldl max e ↔ t < e ∨ ∃ x ∈ es, t < x := by
  induction es generalizing e with
  | nil => simp
  | cons a es ih =>
    rw [List.foldl_cons, ih, lt_max_iff]
    simp only [List.mem_cons, exists_eq_or_imp, or_assoc]

end

end Verif.Mesh
