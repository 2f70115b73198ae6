import Verif.Proofs.QPFix
import Mathlib.Data.List.Nodup

/-! # QP solver: the polish step -/

set_option linter.unusedSectionVars false

namespace Verif.QP

open Matrix Verif.QPSpec

section Active

variable {m : ℕ} (lo up : Fin m → Bool)

theorem countActive_eq (L : List (Fin m)) (a b : ℕ) :
    countActive lo up L (a, b) = (a + (L.filter lo).length, b + (L.filter up).length) := by
  induction L generalizing a b with
  | nil => simp [countActive]
  | cons i L ih =>
    rw [countActive, ih]
    cases h1 : lo i <;> cases h2 : up i <;> simp [h1, h2] <;> omega

theorem set_append {α : Type*} (A : List α) (x y : α) (B : List α) :
    (A ++ x :: B).set A.length y = A ++ y :: B := by
  induction A with
  | nil => rfl
  | cons a A ih => simp

theorem fillActive_eq (L : List (Fin m)) (A B : List (Option (Fin m))) (nl : ℕ)
    (hA : A.length + (L.filter lo).length = nl) :
    fillActive lo up nl L A.length B.length
      ((A ++ List.replicate (L.filter lo).length none) ++ (B ++ List.replicate (L.filter up).length none)) =
      (A ++ (L.filter lo).map some) ++ (B ++ (L.filter up).map some) := by
  induction L generalizing A B with
  | nil => simp [fillActive]
  | cons i L ih =>
    rw [fillActive]
    have setLow : ∀ (k : ℕ) (C : List (Option (Fin m))), ((A ++ List.replicate (k + 1) none) ++ C).set A.length (some i) =
        ((A ++ [some i]) ++ List.replicate k none) ++ C := by
      intro k C
      rw [List.replicate_succ, List.append_assoc, List.cons_append, set_append]
      simp
    have setUp : ∀ (k : ℕ) (D : List (Option (Fin m))), D.length = nl → (D ++ (B ++ List.replicate (k + 1) none)).set (nl + B.length) (some i) =
        D ++ ((B ++ [some i]) ++ List.replicate k none) := by
      intro k D hD
      rw [List.replicate_succ, ← List.append_assoc, ← hD, ← List.length_append, set_append]
      simp
    cases h1 : lo i <;> cases h2 : up i <;> simp only [List.filter_cons, h1, h2, if_true, if_false, List.length_cons] at hA ⊢
    · exact ih A B hA
    · have h3 := ih A (B ++ [some i]) hA
      simp only [List.length_append, List.length_singleton] at h3
      simp only [Bool.false_eq_true, if_false]
      rw [setUp _ _ (by simpa using hA), h3]
      simp
    · have h3 := ih (A ++ [some i]) B (by simp only [List.length_append, List.length_singleton]; omega)
      simp only [List.length_append, List.length_singleton] at h3
      simp only [Bool.false_eq_true, if_false]
      rw [setLow, h3]
      simp
    · have h3 := ih (A ++ [some i]) (B ++ [some i]) (by simp only [List.length_append, List.length_singleton]; omega)
      simp only [List.length_append, List.length_singleton] at h3
      rw [setLow, setUp _ _ (by simp only [List.length_append, List.length_singleton, List.length_replicate]; omega), h3]
      simp

/-- The index vector: the lower-active rows in order, then the upper-active rows in order. -/
theorem luIdx_eq : luIdx lo up = (((List.finRange m).filter lo).length,
    (((List.finRange m).filter lo) ++ ((List.finRange m).filter up)).map some) := by
  unfold luIdx
  rw [countActive_eq]
  simp only [Nat.zero_add, Prod.mk.injEq, true_and]
  have := fillActive_eq lo up (List.finRange m) [] [] _ (by simp; rfl)
  simp only [List.length_nil, List.nil_append] at this
  rw [List.replicate_add, this]
  simp

end Active

theorem mapM_some {α : Type*} (L : List α) : (L.map some).mapM (id : Option α → Option α) = some L := by
  induction L with
  | nil => rfl
  | cons a L ih => simp [List.mapM_cons, ih]

variable {F : Type*} [Field F] [LinearOrder F] [IsStrictOrderedRing F] {n m : ℕ}

/-- The rows taken as active, and how many of them at the lower bound. -/
def activeRows (eps : F) (p : Pbm F n m) (y : Fin m → F) : List (Fin m) :=
  (List.finRange m).filter (lowActive eps p y) ++ (List.finRange m).filter (upActive eps p y)

/-- `polish_qp` never reads an unwritten index. -/
theorem polish_eq (env : Env F n) (prm : Params F) (p : Pbm F n m) (s : Scaling F n m) (y : Fin m → F) :
    polish env prm p s y = .ok (polishWith env prm p s y ((List.finRange m).filter (lowActive env.eps p y)).length
      (activeRows env.eps p y)) := by
  unfold polish
  rw [luIdx_eq]
  simp only
  rw [mapM_some]
  rfl

theorem conclude_total (env : Env F n) (prm : Params F) (p : Pbm F n m) (s : Scaling F n m) (k : ℕ) (r : Option Status)
    (it : It F n m) : ∃ sol, conclude env prm p s k r it = .ok sol := by
  unfold conclude
  split
  · rw [polish_eq]
    cases polishWith env prm p s it.y ((List.finRange m).filter (lowActive env.eps p it.y)).length
      (activeRows env.eps p it.y) with
    | none => exact ⟨_, rfl⟩
    | some xy => exact ⟨_, rfl⟩
  · exact ⟨_, rfl⟩

/-- The write-back sets the listed rows and leaves the others. -/
theorem writeDual_notMem (L : List (Fin m)) (t : Fin L.length → F) (y : Fin m → F) {i : Fin m} (hi : i ∉ L) :
    writeDual L t y i = y i := by
  unfold writeDual
  have : ∀ (K : List (Fin L.length)) (y : Fin m → F),
      K.foldl (fun y i => Function.update y (L.get i) (t i)) y i = y i := by
    intro K
    induction K with
    | nil => intro y; rfl
    | cons k K ih =>
      intro y
      rw [List.foldl_cons, ih, Function.update_of_ne]
      rintro rfl
      exact hi (List.get_mem L k)
  exact this _ _

theorem writeDual_get (L : List (Fin m)) (hL : L.Nodup) (t : Fin L.length → F) (y : Fin m → F) (k : Fin L.length) :
    writeDual L t y (L.get k) = t k := by
  unfold writeDual
  have : ∀ (K : List (Fin L.length)) (y : Fin m → F), (k ∈ K ∨ y (L.get k) = t k) →
      K.foldl (fun y i => Function.update y (L.get i) (t i)) y (L.get k) = t k := by
    intro K
    induction K with
    | nil => intro y h; simpa using h
    | cons j K ih =>
      intro y h
      rw [List.foldl_cons]
      apply ih
      by_cases hjk : k = j
      · right; subst hjk; simp
      · rcases h with h | h
        · rcases List.mem_cons.1 h with h | h
          · exact absurd h hjk
          · exact Or.inl h
        · right
          rw [Function.update_of_ne]
          · exact h
          · intro e
            exact hjk (hL.injective_get e)
  exact this _ _ (Or.inl (List.mem_finRange k))

theorem activeRows_nodup {eps : F} (heps : 0 ≤ eps) (p : Pbm F n m) (y : Fin m → F) : (activeRows eps p y).Nodup := by
  unfold activeRows
  refine List.Nodup.append ((List.nodup_finRange m).filter _) ((List.nodup_finRange m).filter _) ?_
  intro i h1 h2
  have h1 := (List.mem_filter.1 h1).2
  have h2 := (List.mem_filter.1 h2).2
  simp only [lowActive, upActive, Bool.and_eq_true, decide_eq_true_eq] at h1 h2
  have := h1.1
  have := h2.1
  linarith

theorem mem_lows {eps : F} {p : Pbm F n m} {y : Fin m → F} {i : Fin m} :
    i ∈ (List.finRange m).filter (lowActive eps p y) ↔ y i < -100 * eps ∧ p.l i ≠ .neg := by
  rw [List.mem_filter]
  simp only [List.mem_finRange, true_and, lowActive, Bool.and_eq_true, decide_eq_true_eq]
  cases p.l i <;> simp

theorem mem_ups {eps : F} {p : Pbm F n m} {y : Fin m → F} {i : Fin m} :
    i ∈ (List.finRange m).filter (upActive eps p y) ↔ 100 * eps < y i ∧ p.u i ≠ .pos := by
  rw [List.mem_filter]
  simp only [List.mem_finRange, true_and, upActive, Bool.and_eq_true, decide_eq_true_eq]
  cases p.u i <;> simp

end Verif.QP
