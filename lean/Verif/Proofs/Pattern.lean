import Verif.Proofs.Sparse
import Verif.Spec.Pattern
import Mathlib.Data.List.Forall2

/-! # Stored positions: what the functions over a mesh store does not depend on the numbers -/

set_option linter.unusedSectionVars false

namespace Verif.Pattern

open Verif.Sparse Verif.MeshFn Verif.Mesh

variable {F : Type*} [Field F] [LinearOrder F]

/-- A block stores something at this position of the destination. -/
def covers (b : Blk F) (i j : ℕ) : Prop :=
  ∃ r c, r < b.src.rows ∧ c < b.src.cols ∧ pat b.src r c ∧ b.row0 + r = i ∧ b.col0 + c = j ∧ (b.upperOnly = false ∨ i ≤ j)

theorem update_pat {A B : Sp F} {r c : ℕ} {g : F → F} (h : A.update r c g = some B) (i j : ℕ) :
    pat B i j ↔ pat A i j ∨ (r = i ∧ c = j) := by
  unfold Sp.update at h
  by_cases hb : r < A.rows ∧ c < A.cols
  · rw [if_pos hb] at h
    obtain rfl := Option.some.inj h
    unfold pat
    dsimp only
    by_cases he : i = r ∧ j = c
    · rw [if_pos he]
      simp [he.1, he.2]
    · rw [if_neg he]
      exact ⟨fun h => .inl h, fun h => h.resolve_right fun h => he ⟨h.1.symm, h.2.symm⟩⟩
  · rw [if_neg hb] at h
    exact absurd h (by simp)

theorem blockLoop_pat (op : F → F → F) {row0 col0 : ℕ} {scale : F} {up : Bool} (l : List (ℕ × ℕ × F)) {A B : Sp F}
    (h : blockLoop op row0 col0 scale up l A = some B) (i j : ℕ) :
    pat B i j ↔ pat A i j ∨ ∃ e ∈ l, row0 + e.1 = i ∧ col0 + e.2.1 = j ∧ (up = false ∨ i ≤ j) := by
  induction l generalizing A with
  | nil =>
    obtain rfl := Option.some.inj h
    simp
  | cons e l ih =>
    obtain ⟨r, c, v⟩ := e
    simp only [blockLoop] at h
    by_cases hu : up = false ∨ row0 + r ≤ col0 + c
    · rw [if_pos hu] at h
      cases h1 : A.update (row0 + r) (col0 + c) (fun a => op a (scale * v)) with
      | none => rw [h1] at h; exact absurd h (by simp)
      | some A1 =>
        rw [h1] at h
        rw [ih h, update_pat h1]
        simp only [List.mem_cons, exists_eq_or_imp]
        constructor
        · rintro ((h | ⟨rfl, rfl⟩) | h)
          · exact .inl h
          · exact .inr (.inl ⟨rfl, rfl, hu⟩)
          · exact .inr (.inr h)
        · rintro (h | ⟨h1, h2, -⟩ | h)
          · exact .inl (.inl h)
          · exact .inl (.inr ⟨h1, h2⟩)
          · exact .inr h
    · rw [if_neg hu] at h
      rw [ih h]
      simp only [List.mem_cons, exists_eq_or_imp]
      constructor
      · rintro (h | h)
        · exact .inl h
        · exact .inr (.inr h)
      · rintro (h | ⟨rfl, rfl, h3⟩ | h)
        · exact .inl h
        · exact absurd h3 hu
        · exact .inr h

theorem blockAdds_pat (l : List (Blk F)) {A B : Sp F} (h : blockAdds l A = some B) (i j : ℕ) :
    pat B i j ↔ pat A i j ∨ ∃ b ∈ l, covers b i j := by
  induction l generalizing A with
  | nil =>
    obtain rfl := Option.some.inj h
    simp
  | cons b l ih =>
    simp only [blockAdds] at h
    cases h1 : blockAdd A b.row0 b.col0 b.src b.scale b.upperOnly with
    | none => rw [h1] at h; exact absurd h (by simp)
    | some A1 =>
      rw [h1] at h
      rw [ih h, blockLoop_pat _ _ h1]
      simp only [List.mem_cons, exists_eq_or_imp, or_assoc]
      refine or_congr Iff.rfl (or_congr ?_ Iff.rfl)
      constructor
      · rintro ⟨⟨r, c, v⟩, he, h2, h3, h4⟩
        obtain ⟨hr, hc, hv⟩ := (mem_entries _ _ _ _).1 he
        exact ⟨r, c, hr, hc, by simp [pat, hv], h2, h3, h4⟩
      · rintro ⟨r, c, hr, hc, hp, h2, h3, h4⟩
        obtain ⟨v, hv⟩ := Option.isSome_iff_exists.1 hp
        exact ⟨(r, c, v), (mem_entries _ _ _ _).2 ⟨hr, hc, hv⟩, h2, h3, h4⟩

theorem identityLoop_pat (op : F → F → F) {row0 col0 : ℕ} {scale : F} (l : List ℕ) {A B : Sp F}
    (h : identityLoop op row0 col0 scale l A = some B) (i j : ℕ) :
    pat B i j ↔ pat A i j ∨ ∃ k ∈ l, row0 + k = i ∧ col0 + k = j := by
  induction l generalizing A with
  | nil =>
    obtain rfl := Option.some.inj h
    simp
  | cons k l ih =>
    simp only [identityLoop] at h
    cases h1 : A.update (row0 + k) (col0 + k) (fun a => op a scale) with
    | none => rw [h1] at h; exact absurd h (by simp)
    | some A1 =>
      rw [h1] at h
      rw [ih h, update_pat h1]
      simp only [List.mem_cons, exists_eq_or_imp, or_assoc]

theorem setZero_pat (A : Sp F) (i j : ℕ) : pat (setZero A) i j ↔ pat A i j := by
  unfold pat setZero
  simp

theorem empty_pat (r c i j : ℕ) : ¬ pat (Sp.empty r c : Sp F) i j := by
  simp [pat, Sp.empty]

/-! ### Storage order -/

theorem update_order {A B : Sp F} {r c : ℕ} {g : F → F} (h : A.update r c g = some B) : B.rowMajor = A.rowMajor := by
  unfold Sp.update at h
  by_cases hb : r < A.rows ∧ c < A.cols
  · rw [if_pos hb] at h
    obtain rfl := Option.some.inj h
    rfl
  · rw [if_neg hb] at h
    exact absurd h (by simp)

theorem blockLoop_order (op : F → F → F) {row0 col0 : ℕ} {scale : F} {up : Bool} (l : List (ℕ × ℕ × F)) {A B : Sp F}
    (h : blockLoop op row0 col0 scale up l A = some B) : B.rowMajor = A.rowMajor := by
  induction l generalizing A with
  | nil =>
    obtain rfl := Option.some.inj h
    rfl
  | cons e l ih =>
    obtain ⟨r, c, v⟩ := e
    simp only [blockLoop] at h
    by_cases hu : up = false ∨ row0 + r ≤ col0 + c
    · rw [if_pos hu] at h
      cases h1 : A.update (row0 + r) (col0 + c) (fun a => op a (scale * v)) with
      | none => rw [h1] at h; exact absurd h (by simp)
      | some A1 =>
        rw [h1] at h
        exact (ih h).trans (update_order h1)
    · rw [if_neg hu] at h
      exact ih h

theorem blockAdds_order (l : List (Blk F)) {A B : Sp F} (h : blockAdds l A = some B) : B.rowMajor = A.rowMajor := by
  induction l generalizing A with
  | nil =>
    obtain rfl := Option.some.inj h
    rfl
  | cons b l ih =>
    simp only [blockAdds] at h
    cases h1 : blockAdd A b.row0 b.col0 b.src b.scale b.upperOnly with
    | none => rw [h1] at h; exact absurd h (by simp)
    | some A1 =>
      rw [h1] at h
      exact (ih h).trans (blockLoop_order _ _ h1)

theorem identityLoop_order (op : F → F → F) {row0 col0 : ℕ} {scale : F} (l : List ℕ) {A B : Sp F}
    (h : identityLoop op row0 col0 scale l A = some B) : B.rowMajor = A.rowMajor := by
  induction l generalizing A with
  | nil =>
    obtain rfl := Option.some.inj h
    rfl
  | cons k l ih =>
    simp only [identityLoop] at h
    cases h1 : A.update (row0 + k) (col0 + k) (fun a => op a scale) with
    | none => rw [h1] at h; exact absurd h (by simp)
    | some A1 =>
      rw [h1] at h
      exact (ih h).trans (update_order h1)

/-! ### Two runs side by side -/

/-- The same positions, apart from `O`. -/
def Rel (O : ℕ → ℕ → Prop) (A B : Sp F) : Prop := ∀ i j, pat A i j ↔ pat B i j ∨ O i j

/-- Blocks that cover the same positions. -/
structure SameB (b c : Blk F) : Prop where
  row0 : b.row0 = c.row0
  col0 : b.col0 = c.col0
  up : b.upperOnly = c.upperOnly
  src : SameP b.src c.src

theorem SameP.refl (A : Sp F) : SameP A A := ⟨rfl, rfl, fun _ _ => Iff.rfl⟩

theorem SameP.block {A B : Sp F} (h : SameP A B) (r0 c0 r c : ℕ) : SameP (A.block r0 c0 r c) (B.block r0 c0 r c) := by
  refine ⟨rfl, rfl, fun i j => ?_⟩
  unfold Pattern.pat Sp.block
  dsimp only
  by_cases hb : i < r ∧ j < c
  · rw [if_pos hb, if_pos hb]
    exact h.pat _ _
  · rw [if_neg hb, if_neg hb]

theorem SameP.middleCols {A B : Sp F} (h : SameP A B) (c0 c : ℕ) : SameP (A.middleCols c0 c) (B.middleCols c0 c) := by
  unfold Sp.middleCols
  rw [h.rows]
  exact h.block _ _ _ _

theorem SameP.dense (r c : ℕ) (f g : ℕ → ℕ → F) : SameP (Sparse.dense r c f) (Sparse.dense r c g) := by
  refine ⟨rfl, rfl, fun i j => ?_⟩
  unfold Pattern.pat Sparse.dense
  dsimp only
  by_cases hb : i < r ∧ j < c
  · rw [if_pos hb, if_pos hb]
    exact ⟨fun _ => rfl, fun _ => rfl⟩
  · rw [if_neg hb, if_neg hb]

theorem SameB.covers {b c : Blk F} (h : SameB b c) (i j : ℕ) : covers b i j ↔ covers c i j := by
  unfold Pattern.covers
  simp only [h.row0, h.col0, h.up, h.src.rows, h.src.cols, h.src.pat]

theorem cover_congr {l k : List (Blk F)} (h : List.Forall₂ SameB l k) (i j : ℕ) :
    (∃ b ∈ l, covers b i j) ↔ ∃ b ∈ k, covers b i j := by
  induction h with
  | nil => simp
  | cons hb _ ih =>
    simp only [List.mem_cons, exists_eq_or_imp]
    exact or_congr (hb.covers i j) ih

theorem blockAdds_rel {O : ℕ → ℕ → Prop} {l k : List (Blk F)} (h : List.Forall₂ SameB l k) {A B A' B' : Sp F} (hr : Rel O A B)
    (ha : blockAdds l A = some A') (hb : blockAdds k B = some B') : Rel O A' B' := by
  intro i j
  rw [blockAdds_pat _ ha, blockAdds_pat _ hb, hr i j, cover_congr h, or_right_comm]

theorem identity_rel {O : ℕ → ℕ → Prop} {A B A' B' : Sp F} (hr : Rel O A B) {row0 col0 n : ℕ} {s t : F}
    (ha : blockAddIdentity A row0 col0 n s = some A') (hb : blockAddIdentity B row0 col0 n t = some B') : Rel O A' B' := by
  intro i j
  rw [identityLoop_pat _ _ ha, identityLoop_pat _ _ hb, hr i j, or_right_comm]

theorem setZero_rel {O : ℕ → ℕ → Prop} {A B : Sp F} (hr : Rel O A B) : Rel O (setZero A) (setZero B) := by
  intro i j
  rw [setZero_pat, setZero_pat]
  exact hr i j

/-- The derivative buffers of two mesh values. -/
structure MRel (d : ℕ) (O1 O2 : ℕ → ℕ → Prop) (o o' : MV F) : Prop where
  jac : 1 ≤ d → Rel O1 o.dF o'.dF
  hess : 2 ≤ d → Rel O2 o.d2F o'.d2F

theorem pointStep_rel {d n n' : ℕ} {O1 O2 : ℕ → ℕ → Prop} {fop fop' : Vec F → Option (Vec F)} {J J' H H' : List (Blk F)}
    (hJ : List.Forall₂ SameB J J') (hH : List.Forall₂ SameB H H') {o o' p p' : MV F} (hr : MRel d O1 O2 o o')
    (h : pointStep d n fop J H o = some p) (h' : pointStep d n' fop' J' H' o' = some p') : MRel d O1 O2 p p' := by
  have key : ∀ {n : ℕ} {fop : Vec F → Option (Vec F)} {J H : List (Blk F)} {o p : MV F}, pointStep d n fop J H o = some p →
      (1 ≤ d → blockAdds J o.dF = some p.dF) ∧ (2 ≤ d → blockAdds H o.d2F = some p.d2F) := by
    intro n fop J H o p h
    unfold pointStep at h
    cases h1 : fop o.F with
    | none => rw [h1] at h; exact absurd h (by simp)
    | some F1 =>
      rw [h1] at h
      dsimp only at h
      cases h2 : (if 1 ≤ d then blockAdds J o.dF else some o.dF) with
      | none => rw [h2] at h; exact absurd h (by simp)
      | some D1 =>
        rw [h2] at h
        dsimp only at h
        cases h3 : (if 2 ≤ d then (if o.lambda.size = n then blockAdds H o.d2F else none) else some o.d2F) with
        | none => rw [h3] at h; exact absurd h (by simp)
        | some D2 =>
          rw [h3] at h
          obtain rfl := Option.some.inj h
          refine ⟨fun hd => by rwa [if_pos hd] at h2, fun hd => ?_⟩
          rw [if_pos hd] at h3
          by_cases hs : o.lambda.size = n
          · rwa [if_pos hs] at h3
          · rw [if_neg hs] at h3; exact absurd h3 (by simp)
  exact ⟨fun hd => blockAdds_rel hJ (hr.jac hd) ((key h).1 hd) ((key h').1 hd),
    fun hd => blockAdds_rel hH (hr.hess hd) ((key h).2 hd) ((key h').2 hd)⟩

theorem iter_rel {α σ : Type*} {step step' : α → σ → Option σ} {S : α → α → Prop} {R : σ → σ → Prop}
    (hstep : ∀ a b, S a b → ∀ o o' p p', R o o' → step a o = some p → step' b o' = some p' → R p p') {l l' : List α}
    (hl : List.Forall₂ S l l') {o o' p p' : σ} (hr : R o o') (h : iter step l o = some p) (h' : iter step' l' o' = some p') : R p p' := by
  induction hl generalizing o o' with
  | nil =>
    obtain rfl := Option.some.inj h
    obtain rfl := Option.some.inj h'
    exact hr
  | @cons a b l l' hab _ ih =>
    simp only [iter] at h h'
    cases h1 : step a o with
    | none => rw [h1] at h; exact absurd h (by simp)
    | some q =>
      cases h2 : step' b o' with
      | none => rw [h2] at h'; exact absurd h' (by simp)
      | some q' =>
        rw [h1] at h
        rw [h2] at h'
        exact ih (hstep a b hab _ _ _ _ hr h1 h2) h h'

theorem forall₂_flatMap_range {n : ℕ} {f g : ℕ → List (Blk F)} (h : ∀ j, List.Forall₂ SameB (f j) (g j)) :
    List.Forall₂ SameB ((List.range n).flatMap f) ((List.range n).flatMap g) := by
  induction (List.range n) with
  | nil => exact .nil
  | cons a l ih =>
    simp only [List.flatMap_cons]
    exact List.rel_append (h a) ih

theorem evalJac_same (nx nu nf N i : ℕ) (w w' tau tau' : F) {A B : Sp F} (h : SameP A B) :
    List.Forall₂ SameB (evalJac nx nu nf N i w tau A) (evalJac nx nu nf N i w' tau' B) := by
  unfold evalJac
  refine .cons ⟨rfl, rfl, rfl, h.middleCols _ _⟩ (.cons ⟨rfl, rfl, rfl, h.middleCols _ _⟩ (.cons ⟨rfl, rfl, rfl, h.middleCols _ _⟩
    (.cons ⟨rfl, rfl, rfl, h.middleCols _ _⟩ .nil)))

theorem evalHess_same (nx nu N i j : ℕ) (w w' tau tau' : F) {A B : Sp F} (h : SameP A B) :
    List.Forall₂ SameB (evalHess nx nu N i j w tau A) (evalHess nx nu N i j w' tau' B) := by
  unfold evalHess
  repeat (first | exact .nil | refine .cons ⟨rfl, rfl, rfl, h.block _ _ _ _⟩ ?_)

theorem intJac_same (nx nu nf N i row0 : ℕ) (w w' tau tau' sp sp' : F) (f f' : Fin nf → F) {A B : Sp F} (h : SameP A B) :
    List.Forall₂ SameB (intJac nx nu nf N i row0 w tau sp f A) (intJac nx nu nf N i row0 w' tau' sp' f' B) := by
  unfold intJac
  repeat (first | exact .nil | refine .cons ⟨rfl, rfl, rfl, h.middleCols _ _⟩ ?_ | refine .cons ⟨rfl, rfl, rfl, SameP.dense _ _ _ _⟩ ?_)

theorem intHess_same (nx nu N i j : ℕ) (w w' tau tau' sp sp' : F) {A B C D : Sp F} (h : SameP A B) (h' : SameP C D) :
    List.Forall₂ SameB (intHess nx nu N i j w tau sp A C) (intHess nx nu N i j w' tau' sp' B D) := by
  unfold intHess
  repeat (first | exact .nil | refine .cons ⟨rfl, rfl, rfl, h'.block _ _ _ _⟩ ?_ | refine .cons ⟨rfl, rfl, rfl, h.block _ _ _ _⟩ ?_)

theorem forall₂_map_eq {α β : Type*} {l l' : List (ℕ × α)} (h : l.map Prod.fst = l'.map Prod.fst) :
    List.Forall₂ (fun a b => a.1 = b.1) l l' := by
  induction l generalizing l' with
  | nil =>
    cases l' with
    | nil => exact .nil
    | cons b l' => simp at h
  | cons a l ih =>
    cases l' with
    | nil => simp at h
    | cons b l' =>
      simp only [List.map_cons, List.cons.injEq] at h
      exact .cons h.1 (ih h.2)

theorem map_fst_zip {α β : Type*} (l : List α) (k : List β) : (l.zip k).map Prod.fst = l.take k.length := by
  induction l generalizing k with
  | nil => simp
  | cons a l ih =>
    cases k with
    | nil => simp
    | cons b k => simp [ih]

theorem pointList_same {nx nu : ℕ} (env : Env F) (m : Mesh F) {xs xs' : List (Fin nx → F)} {us us' : List (Fin nu → F)}
    (hx : xs.length = xs'.length) (hu : us.length = us'.length) :
    List.Forall₂ (fun a b => a.1 = b.1) (pointList env m xs us) (pointList env m xs' us') := by
  refine forall₂_map_eq (β := Unit) ?_
  unfold pointList
  rw [map_fst_zip, map_fst_zip]
  simp only [List.length_zip, hx, hu]

/-- What was stored before, if the buffer was in use. -/
def oldJ (o : MV F) (i j : ℕ) : Prop := o.allocated = true ∧ pat o.dF i j
def oldH (o : MV F) (i j : ℕ) : Prop := o.allocated = true ∧ pat o.d2F i j

theorem alloc_rel (d n n' v v' : ℕ) {o o' : MV F} (h' : o'.allocated = false) :
    MRel d (oldJ o) (oldH o) ((o.alloc d n v).setZero d) ((o'.alloc d n' v').setZero d) := by
  constructor
  · intro hd
    simp only [MV.setZero, if_pos hd]
    refine setZero_rel fun i j => ?_
    simp only [MV.alloc, h', Bool.false_eq_true, if_false, if_pos hd]
    cases ho : o.allocated
    · simp only [oldJ, ho, Bool.false_eq_true, if_false, false_and, or_false]
      exact iff_of_false (empty_pat _ _ _ _) (empty_pat _ _ _ _)
    · simp only [oldJ, ho, if_true, true_and]
      exact ⟨fun h => .inr h, fun h => h.resolve_left (empty_pat _ _ _ _)⟩
  · intro hd
    simp only [MV.setZero, if_pos hd]
    refine setZero_rel fun i j => ?_
    simp only [MV.alloc, h', Bool.false_eq_true, if_false, if_pos hd]
    cases ho : o.allocated
    · simp only [oldH, ho, Bool.false_eq_true, if_false, false_and, or_false]
      exact iff_of_false (empty_pat _ _ _ _) (empty_pat _ _ _ _)
    · simp only [oldH, ho, if_true, true_and]
      exact ⟨fun h => .inr h, fun h => h.resolve_left (empty_pat _ _ _ _)⟩

section
variable {nx nu nf : ℕ} {env : Env F} {m : Mesh F} {t0 t0' tf tf' : F} {xs xs' : List (Fin nx → F)} {us us' : List (Fin nu → F)}
  {o o' p p' : MV F} {d : ℕ}

theorem meshEval_rel {fn : Fn F nx nu nf} (hf : FixedFn fn) {sc sc' : Bool} (hx : xs.length = xs'.length) (hu : us.length = us'.length)
    (hn : o'.allocated = false) (h : meshEval d env m fn t0 tf xs us sc o = some p) (h' : meshEval d env m fn t0' tf' xs' us' sc' o' = some p') :
    MRel d (oldJ o) (oldH o) p p' := by
  unfold meshEval at h h'
  refine iter_rel (R := MRel d (oldJ o) (oldH o)) ?_ (pointList_same env m hx hu) (alloc_rel _ _ _ _ _ hn) h h'
  rintro ⟨i, a⟩ ⟨i', b⟩ hi o o' p p' hr e e'
  dsimp only at hi
  subst hi
  unfold evalPoint at e e'
  exact pointStep_rel (evalJac_same _ _ _ _ _ _ _ _ _ (hf.jac _ _)) (forall₂_flatMap_range fun j => evalHess_same _ _ _ _ _ _ _ _ _ (hf.hess _ _)) hr e e'

theorem meshIntegrate_rel {fn : Fn F nx nu nf} (hf : FixedFn fn) (hx : xs.length = xs'.length) (hu : us.length = us'.length)
    (hn : o'.allocated = false) (h : meshIntegrate d env m fn t0 tf xs us o = some p) (h' : meshIntegrate d env m fn t0' tf' xs' us' o' = some p') :
    MRel d (oldJ o) (oldH o) p p' := by
  unfold meshIntegrate at h h'
  by_cases c : o.allocated = false ∧ 2 ≤ d ∧ nf = 0
  · rw [if_pos c] at h; exact absurd h (by simp)
  by_cases c' : o'.allocated = false ∧ 2 ≤ d ∧ nf = 0
  · rw [if_pos c'] at h'; exact absurd h' (by simp)
  rw [if_neg c] at h
  rw [if_neg c'] at h'
  refine iter_rel (R := MRel d (oldJ o) (oldH o)) ?_ (pointList_same env m hx hu) (alloc_rel _ _ _ _ _ hn) h h'
  rintro ⟨i, a⟩ ⟨i', b⟩ hi o o' p p' hr e e'
  dsimp only at hi
  subst hi
  unfold intPoint at e e'
  exact pointStep_rel (intJac_same _ _ _ _ _ _ _ _ _ _ _ _ _ _ (hf.jac _ _))
    (forall₂_flatMap_range fun j => intHess_same _ _ _ _ _ _ _ _ _ _ _ (hf.jac _ _) (hf.hess _ _)) hr e e'

theorem dynEntry_rel {O1 O2 : ℕ → ℕ → Prop} {K idx0 i : ℕ} {al : F} {x x' : Fin nx → F} {jw : ℕ × F} (hr : MRel d O1 O2 o o')
    (h : dynEntry env d K al idx0 i x jw o = some p) (h' : dynEntry env d K al idx0 i x' jw o' = some p') : MRel d O1 O2 p p' := by
  have key : ∀ {x : Fin nx → F} {o p : MV F}, dynEntry env d K al idx0 i x jw o = some p →
      p.d2F = o.d2F ∧ (1 ≤ d → ∃ c, blockAddIdentity o.dF ((idx0 + jw.1) * nx) (2 + nx * i) nx c = some p.dF) := by
    intro x o p h
    unfold dynEntry at h
    cases h1 : dusAt env K (i - idx0) jw.1 with
    | none => rw [h1] at h; exact absurd h (by simp)
    | some D =>
      rw [h1] at h
      dsimp only at h
      cases h2 : o.F.addSeg ((idx0 + jw.1) * nx) nx (ext fun k => -jw.2 * al * D * x k) with
      | none => rw [h2] at h; exact absurd h (by simp)
      | some F1 =>
        rw [h2] at h
        dsimp only at h
        cases h3 : (if 1 ≤ d then blockAddIdentity o.dF ((idx0 + jw.1) * nx) (2 + nx * i) nx (-jw.2 * al * D) else some o.dF) with
        | none => rw [h3] at h; exact absurd h (by simp)
        | some D1 =>
          rw [h3] at h
          obtain rfl := Option.some.inj h
          exact ⟨rfl, fun hd => ⟨_, by rwa [if_pos hd] at h3⟩⟩
  refine ⟨fun hd => ?_, fun hd => ?_⟩
  · obtain ⟨c, e⟩ := (key h).2 hd
    obtain ⟨c', e'⟩ := (key h').2 hd
    exact identity_rel (hr.jac hd) e e'
  · rw [(key h).1, (key h').1]
    exact hr.hess hd

theorem forall₂_eq {α : Type*} (l : List α) : List.Forall₂ (fun a b => a = b) l l := by
  induction l with
  | nil => exact .nil
  | cons a l ih => exact .cons rfl ih

theorem dynAdd_rel {O1 O2 : ℕ → ℕ → Prop} {ival idx0 Nival i : ℕ} {x x' : Fin nx → F} (hr : MRel d O1 O2 o o')
    (h : dynAdd env d m ival idx0 Nival i x o = some p) (h' : dynAdd env d m ival idx0 Nival i x' o' = some p') : MRel d O1 O2 p p' := by
  unfold dynAdd at h h'
  cases h1 : m[ival]? with
  | none => rw [h1] at h; exact absurd h (by simp)
  | some v =>
    rw [h1] at h h'
    dsimp only at h h'
    refine iter_rel (R := MRel d O1 O2) ?_ (forall₂_eq _) hr h h'
    rintro a _ rfl o o' p p' hr e e'
    exact dynEntry_rel hr e e'

theorem dynWalk_rel {O1 O2 : ℕ → ℕ → Prop} {N : ℕ} {l l' : List (ℕ × (Fin nx → F))} (hl : List.Forall₂ (fun a b => a.1 = b.1) l l')
    {ival idx0 Nival : ℕ} (hr : MRel d O1 O2 o o')
    (h : dynWalk env d m N l ival idx0 Nival o = some p) (h' : dynWalk env d m N l' ival idx0 Nival o' = some p') : MRel d O1 O2 p p' := by
  induction hl generalizing ival idx0 Nival o o' with
  | nil =>
    obtain rfl := Option.some.inj h
    obtain rfl := Option.some.inj h'
    exact hr
  | @cons a b l l' hab _ ih =>
    obtain ⟨i, x⟩ := a
    obtain ⟨i', x'⟩ := b
    dsimp only at hab
    subst hab
    have bind : ∀ {A : Option (MV F)} {f : MV F → Option (MV F)} {p : MV F},
        (match A with | none => none | some q => f q) = some p → ∃ q, A = some q ∧ f q = some p := by
      intro A f p h
      cases A with
      | none => exact absurd h (by simp)
      | some q => exact ⟨q, rfl, h⟩
    simp only [dynWalk] at h h'
    by_cases c1 : i = idx0 + Nival
    · rw [if_pos c1] at h h'
      obtain ⟨q, e, h⟩ := bind h
      obtain ⟨q', e', h'⟩ := bind h'
      have hq := dynAdd_rel hr e e'
      cases c2 : m[ival + 1]? with
      | some v =>
        rw [c2] at h h'
        dsimp only at h h'
        by_cases c3 : i < N
        · rw [if_pos c3] at h h'
          obtain ⟨r, e, h⟩ := bind h
          obtain ⟨r', e', h'⟩ := bind h'
          exact ih (dynAdd_rel hq e e') h h'
        · rw [if_neg c3] at h h'
          exact ih hq h h'
      | none =>
        rw [c2] at h h'
        dsimp only at h h'
        by_cases c3 : i < N
        · rw [if_pos c3] at h h'
          obtain ⟨r, e, h⟩ := bind h
          obtain ⟨r', e', h'⟩ := bind h'
          exact ih (dynAdd_rel hq e e') h h'
        · rw [if_neg c3] at h h'
          exact ih hq h h'
    · rw [if_neg c1] at h h'
      by_cases c3 : i < N
      · rw [if_pos c3] at h h'
        obtain ⟨r, e, h⟩ := bind h
        obtain ⟨r', e', h'⟩ := bind h'
        exact ih (dynAdd_rel hr e e') h h'
      · rw [if_neg c3] at h h'
        exact ih hr h h'

theorem meshDyn_rel {fn : Fn F nx nu nx} (hf : FixedFn fn) (hx : xs.length = xs'.length) (hu : us.length = us'.length)
    (hn : o'.allocated = false) (h : meshDyn d env m fn t0 tf xs us o = some p) (h' : meshDyn d env m fn t0' tf' xs' us' o' = some p') :
    MRel d (oldJ o) (oldH o) p p' := by
  unfold meshDyn at h h'
  dsimp only at h h'
  cases h1 : iter (dynPoint d (nColloc m) fn t0 tf) (pointList env m xs us) ((o.alloc d (nx * nColloc m) (2 + nx * (nColloc m + 1) + nu * nColloc m)).setZero d) with
  | none => rw [h1] at h; exact absurd h (by simp)
  | some q =>
    cases h2 : iter (dynPoint d (nColloc m) fn t0' tf') (pointList env m xs' us') ((o'.alloc d (nx * nColloc m) (2 + nx * (nColloc m + 1) + nu * nColloc m)).setZero d) with
    | none => rw [h2] at h'; exact absurd h' (by simp)
    | some q' =>
      rw [h1] at h
      rw [h2] at h'
      dsimp only at h h'
      cases h3 : nCollocIval m 0 with
      | none => rw [h3] at h; exact absurd h (by simp)
      | some K0 =>
        rw [h3] at h h'
        dsimp only at h h'
        refine dynWalk_rel (forall₂_map_eq (β := Unit) ?_) ?_ h h'
        · rw [map_fst_zip, map_fst_zip, hx]
        · refine iter_rel (R := MRel d (oldJ o) (oldH o)) ?_ (pointList_same env m hx hu) (alloc_rel _ _ _ _ _ hn) h1 h2
          rintro ⟨i, a⟩ ⟨i', b⟩ hi o o' p p' hr e e'
          dsimp only at hi
          subst hi
          unfold dynPoint at e e'
          exact pointStep_rel (intJac_same _ _ _ _ _ _ _ _ _ _ _ _ _ _ (hf.jac _ _))
            (forall₂_flatMap_range fun j => intHess_same _ _ _ _ _ _ _ _ _ _ _ (hf.jac _ _) (hf.hess _ _)) hr e e'

end

end Verif.Pattern
