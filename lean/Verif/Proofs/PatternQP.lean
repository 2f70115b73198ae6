import Verif.Proofs.Pattern
import Verif.Model.OCPQP

/-! # Stored positions of the quadratic program: two updates side by side -/

set_option linter.unusedSectionVars false

namespace Verif.Pattern

open Verif.Mesh Verif.Sparse Verif.MeshFn Verif.NLP Verif.OQP

variable {F : Type*} [Field F] [LinearOrder F] {nx nu nf ncr nce : ℕ}

theorem blockWrite_pat {A B S : Sp F} {row0 col0 : ℕ} (h : blockWrite A row0 col0 S = some B) (i j : ℕ) :
    pat B i j ↔ pat A i j ∨ ∃ r c, r < S.rows ∧ c < S.cols ∧ pat S r c ∧ row0 + r = i ∧ col0 + c = j := by
  rw [blockLoop_pat _ _ h]
  refine or_congr Iff.rfl ?_
  constructor
  · rintro ⟨⟨r, c, v⟩, he, h2, h3, -⟩
    obtain ⟨hr, hc, hv⟩ := (mem_entries _ _ _ _).1 he
    exact ⟨r, c, hr, hc, by simp [pat, hv], h2, h3⟩
  · rintro ⟨r, c, hr, hc, hp, h2, h3⟩
    obtain ⟨v, hv⟩ := Option.isSome_iff_exists.1 hp
    exact ⟨(r, c, v), (mem_entries _ _ _ _).2 ⟨hr, hc, hv⟩, h2, h3, .inl rfl⟩

theorem blockWrite_rel {O : ℕ → ℕ → Prop} {A B A' B' S S' : Sp F} {row0 col0 : ℕ} (hs : SameP S S') (hr : Rel O A B)
    (ha : blockWrite A row0 col0 S = some A') (hb : blockWrite B row0 col0 S' = some B') : Rel O A' B' := by
  intro i j
  rw [blockWrite_pat ha, blockWrite_pat hb, hr i j, or_right_comm]
  simp only [hs.rows, hs.cols, hs.pat]

theorem blockWrite_order {A B S : Sp F} {row0 col0 : ℕ} (h : blockWrite A row0 col0 S = some B) : B.rowMajor = A.rowMajor :=
  blockLoop_order _ _ h

theorem zeroRows_pat {A B : Sp F} {b n : ℕ} (h : zeroRows A b n = some B) (i j : ℕ) : pat B i j ↔ pat A i j := by
  unfold zeroRows at h
  by_cases hb : b + n ≤ A.rows
  · rw [if_pos hb] at h
    obtain rfl := Option.some.inj h
    unfold pat
    dsimp only
    by_cases hc : b ≤ i ∧ i < b + n
    · rw [if_pos hc, Option.isSome_map]
    · rw [if_neg hc]
  · rw [if_neg hb] at h; exact absurd h (by simp)

theorem zeroRows_order {A B : Sp F} {b n : ℕ} (h : zeroRows A b n = some B) : B.rowMajor = A.rowMajor := by
  unfold zeroRows at h
  by_cases hb : b + n ≤ A.rows
  · rw [if_pos hb] at h
    obtain rfl := Option.some.inj h
    rfl
  · rw [if_neg hb] at h; exact absurd h (by simp)

/-! ### Dynamics -/

theorem dynBlocks_same (nx nu N p : ℕ) (tf tf' : F) {J J' : Sp F} (hJ : SameP J J') {a a' : Option (Sp F)}
    (ha : Option.Rel SameP a a') : List.Forall₂ SameB (dynBlocks nx nu N p tf J a) (dynBlocks nx nu N p tf' J' a') := by
  unfold dynBlocks
  refine .cons ⟨rfl, rfl, rfl, hJ.middleCols _ _⟩ (.cons ⟨rfl, rfl, rfl, hJ.middleCols _ _⟩ ?_)
  cases ha with
  | none => exact .nil
  | some h => exact .cons ⟨rfl, rfl, rfl, h⟩ .nil

theorem dynDiag_rel {O : ℕ → ℕ → Prop} {env : Mesh.Env F} {K M i j : ℕ} {al al' : F} {A B A' B' : Sp F} (hr : Rel O A B)
    (ha : dynDiag env nx K al M i j A = some A') (hb : dynDiag env nx K al' M i j B = some B') : Rel O A' B' := by
  unfold dynDiag at ha hb
  cases h : dusAt env K j i with
  | none => rw [h] at ha; exact absurd ha (by simp)
  | some D =>
    rw [h] at ha hb
    intro a b
    rw [identityLoop_pat _ _ ha, identityLoop_pat _ _ hb, hr a b, or_right_comm]

theorem dynDiag_order {env : Mesh.Env F} {K M i j : ℕ} {al : F} {A A' : Sp F}
    (ha : dynDiag env nx K al M i j A = some A') : A'.rowMajor = A.rowMajor := by
  unfold dynDiag at ha
  cases h : dusAt env K j i with
  | none => rw [h] at ha; exact absurd ha (by simp)
  | some D => rw [h] at ha; exact identityLoop_order _ _ ha

/-- An order that every step keeps. -/
theorem iter_keep {α σ β : Type*} {step : α → σ → Option σ} {k : σ → β} (hs : ∀ a o p, step a o = some p → k p = k o) (l : List α)
    {o p : σ} (h : iter step l o = some p) : k p = k o := by
  induction l generalizing o with
  | nil =>
    obtain rfl := Option.some.inj h
    rfl
  | cons a l ih =>
    simp only [iter] at h
    cases h1 : step a o with
    | none => rw [h1] at h; exact absurd h (by simp)
    | some q =>
      rw [h1] at h
      exact (ih h).trans (hs a o q h1)

theorem forall₂_same {α : Type*} {S : α → α → Prop} (hS : ∀ a, S a a) (l : List α) : List.Forall₂ S l l := by
  induction l with
  | nil => exact .nil
  | cons a l ih => exact .cons (hS a) ih

/-- What `dynRow` does to the matrix. -/
theorem dynRow_mat {env : Mesh.Env F} {N : ℕ} {ocp : OCP F nx nu 1 ncr nce} {ad : Option ((Fin nx → F) → Sp F)} {tf : F}
    {lin : Lin F nx nu} {K : ℕ} {alpha : F} {M : ℕ} {it : ℕ × F} {qp qp' : QPD F}
    (h : dynRow env N ocp ad tf lin K alpha M it qp = some qp') :
    ∃ A1, blockAdds (dynBlocks nx nu N (M + it.1) tf (ocp.f.jac (pt (timeAt tf it.2) (lin.x (timeAt tf it.2)) (lin.u (timeAt tf it.2))))
        (ad.map fun a => a (ocp.f.val (pt (timeAt tf it.2) (lin.x (timeAt tf it.2)) (lin.u (timeAt tf it.2))) + lin.dx (timeAt tf it.2)))) qp.A = some A1 ∧
      iter (dynDiag env nx K alpha M it.1) (List.range (K + 1)) A1 = some qp'.A := by
  unfold dynRow at h
  dsimp only at h
  cases h1 : blockAdds (dynBlocks nx nu N (M + it.1) tf (ocp.f.jac (pt (timeAt tf it.2) (lin.x (timeAt tf it.2)) (lin.u (timeAt tf it.2))))
        (ad.map fun a => a (ocp.f.val (pt (timeAt tf it.2) (lin.x (timeAt tf it.2)) (lin.u (timeAt tf it.2))) + lin.dx (timeAt tf it.2)))) qp.A with
  | none => rw [h1] at h; exact absurd h (by simp)
  | some A1 =>
    rw [h1] at h
    dsimp only at h
    refine ⟨A1, rfl, ?_⟩
    cases h2 : iter (dynDiag env nx K alpha M it.1) (List.range (K + 1)) A1 with
    | none => rw [h2] at h; exact absurd h (by simp)
    | some A2 =>
      rw [h2] at h
      dsimp only at h
      split at h
      · exact absurd h (by simp)
      · split at h
        · exact absurd h (by simp)
        · obtain rfl := Option.some.inj h
          rfl

/-- Two problems whose dynamics store the same positions. -/
def SameF (ocp ocp' : OCP F nx nu 1 ncr nce) : Prop := ∀ p q, SameP (ocp.f.jac p) (ocp'.f.jac q)

/-- The same for the bracket matrices. -/
def SameAd (ad : Option ((Fin nx → F) → Sp F)) : Prop := ∀ a ∈ ad, ∀ v w, SameP (a v) (a w)

theorem updateDyn_rel {O : ℕ → ℕ → Prop} {env : Mesh.Env F} {m : Mesh F} {ocp ocp' : OCP F nx nu 1 ncr nce} {ad : Option ((Fin nx → F) → Sp F)}
    {tf tf' : F} {lin lin' : Lin F nx nu} {s r s' r' : QPD F × Work F} (hf : SameF ocp ocp') (had : SameAd ad) (hr : Rel O s.1.A s'.1.A)
    (h : updateDyn env m ocp ad tf lin s = some r) (h' : updateDyn env m ocp' ad tf' lin' s' = some r') : Rel O r.1.A r'.1.A := by
  have row : ∀ {K M : ℕ} {al : F} (it : ℕ × F) {q q' p p' : QPD F}, Rel O q.A q'.A → dynRow env (nColloc m) ocp ad tf lin K al M it q = some p →
      dynRow env (nColloc m) ocp' ad tf' lin' K al M it q' = some p' → Rel O p.A p'.A := by
    intro K M al it q q' p p' hq e e'
    obtain ⟨A1, e1, e2⟩ := dynRow_mat e
    obtain ⟨B1, e1', e2'⟩ := dynRow_mat e'
    refine iter_rel (R := Rel O) (S := fun a b => a = b) ?_ (forall₂_same (fun _ => rfl) _) (blockAdds_rel (dynBlocks_same _ _ _ _ _ _ (hf _ _) ?_) hq e1 e1') e2 e2'
    · rintro a b rfl o o' p p' ho x x'
      exact dynDiag_rel ho x x'
    · cases ad with
      | none => exact .none
      | some a => exact .some (had a rfl _ _)
  have ivals : ∀ (l : List ℕ) (M : ℕ) {q q' p p' : QPD F}, Rel O q.A q'.A → dynIvals env m ocp ad tf lin l M q = some p →
      dynIvals env m ocp' ad tf' lin' l M q' = some p' → Rel O p.A p'.A := by
    intro l
    induction l with
    | nil =>
      intro M q q' p p' hq e e'
      obtain rfl := Option.some.inj e
      obtain rfl := Option.some.inj e'
      exact hq
    | cons iv l ih =>
      intro M q q' p p' hq e e'
      simp only [dynIvals] at e e'
      cases hv : m[iv]? with
      | none => rw [hv] at e; exact absurd e (by simp)
      | some v =>
        rw [hv] at e e'
        dsimp only at e e'
        split at e
        · exact absurd e (by simp)
        · rename_i q1 e1
          split at e'
          · exact absurd e' (by simp)
          · rename_i q1' e1'
            refine ih _ (iter_rel (R := fun a b : QPD F => Rel O a.A b.A) (S := fun a b => a = b) ?_ (forall₂_same (fun _ => rfl) _) hq e1 e1') e e'
            rintro a b rfl o o' p p' ho x x'
            exact row a ho x x'
  unfold updateDyn at h h'
  split at h
  · exact absurd h (by simp)
  · rename_i A hA
    split at h
    · exact absurd h (by simp)
    · rename_i q hq
      obtain rfl := Option.some.inj h
      split at h'
      · exact absurd h' (by simp)
      · rename_i B hB
        split at h'
        · exact absurd h' (by simp)
        · rename_i q' hq'
          obtain rfl := Option.some.inj h'
          refine ivals _ _ ?_ hq hq'
          intro i j
          rw [zeroRows_pat hA, zeroRows_pat hB]
          exact hr i j

theorem updateDyn_order {env : Mesh.Env F} {m : Mesh F} {ocp : OCP F nx nu 1 ncr nce} {ad : Option ((Fin nx → F) → Sp F)}
    {tf : F} {lin : Lin F nx nu} {s r : QPD F × Work F} (h : updateDyn env m ocp ad tf lin s = some r) : r.1.A.rowMajor = s.1.A.rowMajor := by
  have ivals : ∀ (l : List ℕ) (M : ℕ) {q p : QPD F}, dynIvals env m ocp ad tf lin l M q = some p → p.A.rowMajor = q.A.rowMajor := by
    intro l
    induction l with
    | nil =>
      intro M q p e
      obtain rfl := Option.some.inj e
      rfl
    | cons iv l ih =>
      intro M q p e
      simp only [dynIvals] at e
      split at e
      · exact absurd e (by simp)
      · split at e
        · exact absurd e (by simp)
        · rename_i q1 e1
          refine (ih _ e).trans (iter_keep (k := fun q : QPD F => q.A.rowMajor) ?_ _ e1)
          intro a o p x
          obtain ⟨A1, e1, e2⟩ := dynRow_mat x
          exact (iter_keep (k := fun A : Sp F => A.rowMajor) (fun a o p x => dynDiag_order x) _ e2).trans (blockAdds_order _ e1)
  unfold updateDyn at h
  split at h
  · exact absurd h (by simp)
  · rename_i A hA
    split at h
    · exact absurd h (by simp)
    · rename_i q hq
      obtain rfl := Option.some.inj h
      exact (ivals _ _ hq).trans (zeroRows_order hA)

/-! ### Running constraints -/

theorem meshEval_rel₂ {env : Mesh.Env F} {m : Mesh F} {fn fn' : Fn F nx nu nf} {t0 t0' tf tf' : F} {xs xs' : List (Fin nx → F)} {us us' : List (Fin nu → F)}
    {o o' p p' : MV F} (hf : ∀ p q, SameP (fn.jac p) (fn'.jac q)) {sc sc' : Bool} (hx : xs.length = xs'.length)
    (hu : us.length = us'.length) {O1 O2 : ℕ → ℕ → Prop}
    (hr : MRel 1 O1 O2 ((o.alloc 1 (nf * nColloc m) (2 + nx * (nColloc m + 1) + nu * nColloc m)).setZero 1)
      ((o'.alloc 1 (nf * nColloc m) (2 + nx * (nColloc m + 1) + nu * nColloc m)).setZero 1))
    (h : meshEval 1 env m fn t0 tf xs us sc o = some p) (h' : meshEval 1 env m fn' t0' tf' xs' us' sc' o' = some p') :
    Rel O1 p.dF p'.dF := by
  unfold meshEval at h h'
  refine (iter_rel (R := MRel 1 O1 O2) ?_ (pointList_same env m hx hu) hr h h').jac (le_refl 1)
  rintro ⟨i, a⟩ ⟨i', b⟩ hi o o' p p' hr e e'
  dsimp only at hi
  subst hi
  unfold evalPoint at e e'
  have key : ∀ {n : ℕ} {fop : Vec F → Option (Vec F)} {J H : List (Blk F)} {o p : MV F}, pointStep 1 n fop J H o = some p →
      blockAdds J o.dF = some p.dF := by
    intro n fop J H o p h
    unfold pointStep at h
    split at h
    · exact absurd h (by simp)
    · rw [if_pos (le_refl 1), if_neg (by norm_num)] at h
      split at h
      · exact absurd h (by simp)
      · rename_i D hD
        obtain rfl := Option.some.inj h
        exact hD
  exact ⟨fun _ => blockAdds_rel (evalJac_same _ _ _ _ _ _ _ _ _ (hf _ _)) (hr.jac (le_refl 1)) (key e) (key e'), fun h => absurd h (by norm_num)⟩

/-! ### Sizes -/

theorem update_dims {A B : Sp F} {r c : ℕ} {g : F → F} (h : A.update r c g = some B) : B.rows = A.rows ∧ B.cols = A.cols := by
  unfold Sp.update at h
  by_cases hb : r < A.rows ∧ c < A.cols
  · rw [if_pos hb] at h
    obtain rfl := Option.some.inj h
    exact ⟨rfl, rfl⟩
  · rw [if_neg hb] at h
    exact absurd h (by simp)

theorem blockLoop_dims (op : F → F → F) {row0 col0 : ℕ} {scale : F} {up : Bool} (l : List (ℕ × ℕ × F)) {A B : Sp F}
    (h : blockLoop op row0 col0 scale up l A = some B) : B.rows = A.rows ∧ B.cols = A.cols := by
  induction l generalizing A with
  | nil =>
    obtain rfl := Option.some.inj h
    exact ⟨rfl, rfl⟩
  | cons e l ih =>
    obtain ⟨r, c, v⟩ := e
    simp only [blockLoop] at h
    by_cases hu : up = false ∨ row0 + r ≤ col0 + c
    · rw [if_pos hu] at h
      cases h1 : A.update (row0 + r) (col0 + c) (fun a => op a (scale * v)) with
      | none => rw [h1] at h; exact absurd h (by simp)
      | some A1 =>
        rw [h1] at h
        exact ⟨(ih h).1.trans (update_dims h1).1, (ih h).2.trans (update_dims h1).2⟩
    · rw [if_neg hu] at h
      exact ih h

theorem blockAdds_dims (l : List (Blk F)) {A B : Sp F} (h : blockAdds l A = some B) : B.rows = A.rows ∧ B.cols = A.cols := by
  induction l generalizing A with
  | nil =>
    obtain rfl := Option.some.inj h
    exact ⟨rfl, rfl⟩
  | cons b l ih =>
    simp only [blockAdds] at h
    cases h1 : blockAdd A b.row0 b.col0 b.src b.scale b.upperOnly with
    | none => rw [h1] at h; exact absurd h (by simp)
    | some A1 =>
      rw [h1] at h
      exact ⟨(ih h).1.trans (blockLoop_dims _ _ h1).1, (ih h).2.trans (blockLoop_dims _ _ h1).2⟩

theorem pointStep_jac {n : ℕ} {fop : Vec F → Option (Vec F)} {J H : List (Blk F)} {o p : MV F} (h : pointStep 1 n fop J H o = some p) :
    blockAdds J o.dF = some p.dF ∧ p.allocated = o.allocated := by
  unfold pointStep at h
  split at h
  · exact absurd h (by simp)
  · rw [if_pos (le_refl 1), if_neg (by norm_num)] at h
    split at h
    · exact absurd h (by simp)
    · rename_i D hD
      obtain rfl := Option.some.inj h
      exact ⟨hD, rfl⟩

theorem meshEval_shape {env : Mesh.Env F} {m : Mesh F} {fn : Fn F nx nu nf} {t0 tf : F} {xs : List (Fin nx → F)} {us : List (Fin nu → F)}
    {o p : MV F} {sc : Bool} (h : meshEval 1 env m fn t0 tf xs us sc o = some p) :
    p.dF.rows = (o.alloc 1 (nf * nColloc m) (2 + nx * (nColloc m + 1) + nu * nColloc m)).dF.rows ∧
    p.dF.cols = (o.alloc 1 (nf * nColloc m) (2 + nx * (nColloc m + 1) + nu * nColloc m)).dF.cols ∧ p.allocated = true := by
  unfold meshEval at h
  have h1 := iter_keep (k := fun o : MV F => (o.dF.rows, o.dF.cols, o.allocated)) (fun a o p e => by
    obtain ⟨e1, e2⟩ := pointStep_jac (by unfold evalPoint at e; exact e)
    obtain ⟨e3, e4⟩ := blockAdds_dims _ e1
    simp only [e2, e3, e4]) _ h
  simp only [Prod.mk.injEq] at h1
  refine ⟨h1.1.trans ?_, h1.2.1.trans ?_, h1.2.2.trans ?_⟩
  · simp [MV.setZero, setZero]
  · simp [MV.setZero, setZero]
  · cases ha : o.allocated <;> simp [MV.setZero, MV.alloc, ha]

/-- Two buffers in use that store the same positions. -/
structure SameBuf (o o' : MV F) : Prop where
  used : o.allocated = true
  used' : o'.allocated = true
  dF : SameP o.dF o'.dF

theorem SameP.trans {A B C : Sp F} (h : SameP A B) (h' : SameP B C) : SameP A C :=
  ⟨h.rows.trans h'.rows, h.cols.trans h'.cols, fun i j => (h.pat i j).trans (h'.pat i j)⟩

theorem SameP.symm {A B : Sp F} (h : SameP A B) : SameP B A := ⟨h.rows.symm, h.cols.symm, fun i j => (h.pat i j).symm⟩

theorem SameBuf.trans {a b c : MV F} (h : SameBuf a b) (h' : SameBuf b c) : SameBuf a c := ⟨h.used, h'.used', h.dF.trans h'.dF⟩

theorem SameBuf.symm {a b : MV F} (h : SameBuf a b) : SameBuf b a := ⟨h.used', h.used, h.dF.symm⟩

/-- Evaluations from like buffers end with like buffers. -/
theorem meshEval_same {env : Mesh.Env F} {m : Mesh F} {fn fn' : Fn F nx nu nf} {t0 t0' tf tf' : F} {xs xs' : List (Fin nx → F)} {us us' : List (Fin nu → F)}
    {o o' p p' : MV F} (hf : ∀ p q, SameP (fn.jac p) (fn'.jac q)) {sc sc' : Bool} (hx : xs.length = xs'.length)
    (hu : us.length = us'.length) (hr : SameBuf o o')
    (h : meshEval 1 env m fn t0 tf xs us sc o = some p) (h' : meshEval 1 env m fn' t0' tf' xs' us' sc' o' = some p') : SameBuf p p' := by
  obtain ⟨a1, a2, a3⟩ := meshEval_shape h
  obtain ⟨b1, b2, b3⟩ := meshEval_shape h'
  have e : ∀ {n v : ℕ}, o.alloc 1 n v = o := by intros; simp [MV.alloc, hr.used]
  have e' : ∀ {n v : ℕ}, o'.alloc 1 n v = o' := by intros; simp [MV.alloc, hr.used']
  have key := meshEval_rel₂ (O1 := fun _ _ => False) (O2 := fun _ _ => False) hf hx hu (by
    rw [e, e']
    refine ⟨fun _ => ?_, fun h => absurd h (by norm_num)⟩
    simp only [MV.setZero, if_pos (le_refl 1)]
    exact setZero_rel fun i j => by simpa using hr.dF.pat i j) h h'
  rw [e] at a1 a2
  rw [e'] at b1 b2
  exact ⟨a3, b3, a1.trans (hr.dF.rows.trans b1.symm), a2.trans (hr.dF.cols.trans b2.symm), fun i j => by simpa using key i j⟩

/-- An evaluation from a fresh buffer, then one more: the second finds all positions stored. -/
theorem meshEval_again {env : Mesh.Env F} {m : Mesh F} {fn fn' : Fn F nx nu nf} {t0 t0' tf tf' : F} {xs xs' : List (Fin nx → F)} {us us' : List (Fin nu → F)}
    {o p q : MV F} (hf : ∀ p q, SameP (fn.jac p) (fn'.jac q)) {sc sc' : Bool} (hx : xs.length = xs'.length)
    (hu : us.length = us'.length) (ho : o.allocated = false)
    (h : meshEval 1 env m fn' t0 tf xs us sc o = some p) (h' : meshEval 1 env m fn t0' tf' xs' us' sc' p = some q) : SameBuf q p := by
  obtain ⟨a1, a2, a3⟩ := meshEval_shape h
  obtain ⟨b1, b2, b3⟩ := meshEval_shape h'
  have e : ∀ {n v : ℕ}, p.alloc 1 n v = p := by intros; simp [MV.alloc, a3]
  have key := meshEval_rel₂ (O1 := pat p.dF) (O2 := fun _ _ => True) hf hx.symm hu.symm (by
    rw [e]
    refine ⟨fun _ => ?_, fun h => absurd h (by norm_num)⟩
    simp only [MV.setZero, if_pos (le_refl 1)]
    refine setZero_rel fun i j => ?_
    simp only [MV.alloc, ho, Bool.false_eq_true, if_false, if_pos (le_refl 1)]
    exact ⟨.inr, fun h => h.resolve_left (empty_pat _ _ _ _)⟩) h' h
  rw [e] at b1 b2
  exact ⟨b3, a3, b1, b2, fun i j => by simpa using key i j⟩

theorem atNodes_length {α β : Type*} (env : Mesh.Env F) (m : Mesh F) (f : F → α) (g : F → β) : (atNodes env m f).length = (atNodes env m g).length := by
  simp [atNodes]

/-- What `updateCr` does to the buffer and the matrix. -/
theorem updateCr_mat {env : Mesh.Env F} {m : Mesh F} {ocp : OCP F nx nu 1 ncr nce} {tf : F} {lin : Lin F nx nu} {s r : QPD F × Work F}
    (h : updateCr env m ocp tf lin s = some r) :
    meshEval 1 env m ocp.cr 0 tf (atNodes env m fun t => lin.x (timeAt tf t)) (atNodes env m fun t => lin.u (timeAt tf t)) false s.2.cr = some r.2.cr ∧
    blockWrite s.1.A (crconB nx (nColloc m)) 0 (r.2.cr.dF.middleCols 2 (xvarL nx (nColloc m) + uvarL nu (nColloc m))) = some r.1.A := by
  unfold updateCr at h
  dsimp only at h
  split at h
  · exact absurd h (by simp)
  · rename_i cr e1
    split at h
    · exact absurd h (by simp)
    · rename_i A e2
      split at h
      · split at h
        · exact absurd h (by simp)
        · split at h
          · exact absurd h (by simp)
          · obtain rfl := Option.some.inj h
            exact ⟨e1, e2⟩
      · exact absurd h (by simp)

theorem updateCr_rel {O : ℕ → ℕ → Prop} {env : Mesh.Env F} {m : Mesh F} {ocp ocp' : OCP F nx nu 1 ncr nce}
    {tf tf' : F} {lin lin' : Lin F nx nu} {s r s' r' : QPD F × Work F} (hr : Rel O s.1.A s'.1.A) (hb : SameBuf r.2.cr r'.2.cr)
    (h : updateCr env m ocp tf lin s = some r) (h' : updateCr env m ocp' tf' lin' s' = some r') : Rel O r.1.A r'.1.A :=
  blockWrite_rel (hb.dF.middleCols _ _) hr (updateCr_mat h).2 (updateCr_mat h').2

/-! ### End constraints -/

theorem updateCe_mat {m : Mesh F} {ocp : OCP F nx nu 1 ncr nce} {tf : F} {lin : Lin F nx nu} {s r : QPD F × Work F}
    (h : updateCe m ocp tf lin s = some r) :
    ∃ A1, blockWrite s.1.A (ceconB nx ncr (nColloc m)) xvarB ((ocp.ce.jac (endLin lin tf)).middleCols 1 nx) = some A1 ∧
      blockWrite A1 (ceconB nx ncr (nColloc m)) (xvarB + xvarL nx (nColloc m) - nx) ((ocp.ce.jac (endLin lin tf)).middleCols (1 + nx) nx) = some r.1.A := by
  unfold updateCe at h
  dsimp only at h
  split at h
  · exact absurd h (by simp)
  · rename_i A1 e1
    split at h
    · exact absurd h (by simp)
    · rename_i A2 e2
      split at h
      · exact absurd h (by simp)
      · split at h
        · exact absurd h (by simp)
        · obtain rfl := Option.some.inj h
          exact ⟨A1, e1, e2⟩

theorem updateCe_rel {O : ℕ → ℕ → Prop} {m : Mesh F} {ocp ocp' : OCP F nx nu 1 ncr nce}
    {tf tf' : F} {lin lin' : Lin F nx nu} {s r s' r' : QPD F × Work F} (hc : SameP (ocp.ce.jac (endLin lin tf)) (ocp'.ce.jac (endLin lin' tf')))
    (hr : Rel O s.1.A s'.1.A) (h : updateCe m ocp tf lin s = some r) (h' : updateCe m ocp' tf' lin' s' = some r') : Rel O r.1.A r'.1.A := by
  obtain ⟨A1, e1, e2⟩ := updateCe_mat h
  obtain ⟨B1, e1', e2'⟩ := updateCe_mat h'
  exact blockWrite_rel (hc.middleCols _ _) (blockWrite_rel (hc.middleCols _ _) hr e1 e1') e2 e2'

theorem updateCr_order {env : Mesh.Env F} {m : Mesh F} {ocp : OCP F nx nu 1 ncr nce} {tf : F} {lin : Lin F nx nu} {s r : QPD F × Work F}
    (h : updateCr env m ocp tf lin s = some r) : r.1.A.rowMajor = s.1.A.rowMajor := blockWrite_order (updateCr_mat h).2

theorem updateCe_order {m : Mesh F} {ocp : OCP F nx nu 1 ncr nce} {tf : F} {lin : Lin F nx nu} {s r : QPD F × Work F}
    (h : updateCe m ocp tf lin s = some r) : r.1.A.rowMajor = s.1.A.rowMajor := by
  obtain ⟨A1, e1, e2⟩ := updateCe_mat h
  exact (blockWrite_order e2).trans (blockWrite_order e1)

/-! ### Nothing new -/

/-- All positions of `B` are stored in `A`. -/
def Sub (B A : Sp F) : Prop := ∀ i j, pat B i j → pat A i j

theorem Sub.refl (A : Sp F) : Sub A A := fun _ _ h => h

theorem Sub.trans {A B C : Sp F} (h : Sub A B) (h' : Sub B C) : Sub A C := fun i j x => h' i j (h i j x)

/-- A step that, run from `A` and from `B`, keeps every `Rel`: it stores nothing new in `A` if everything it stored in `B` is there. -/
theorem nothing_new {A A' B B' : Sp F} (hs : ∀ O, Rel O A B → Rel O A' B') (hm : Sub B B') (hb : Sub B' A) (i j : ℕ) : pat A' i j ↔ pat A i j := by
  have h : Rel (pat A) A B := fun i j => ⟨.inr, fun h => h.elim (fun h => hb i j (hm i j h)) id⟩
  rw [hs _ h i j]
  exact ⟨fun h => h.elim (hb i j) id, .inr⟩

/-- A step that keeps every `Rel` with itself forgets nothing. -/
theorem sub_of_self {B B' : Sp F} (hs : ∀ O, Rel O B B → Rel O B' B') : Sub B B' := fun i j h =>
  (hs (pat B) (fun _ _ => ⟨.inl, fun h => h.elim id id⟩) i j).2 (.inr h)

end Verif.Pattern
