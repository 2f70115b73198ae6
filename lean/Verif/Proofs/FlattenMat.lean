import Verif.Spec.Flatten
import Verif.Props.Sparse

/-! # Matrices of the flattened functions: positions and sums -/

namespace Verif.Flatten

open Verif.Sparse Verif.Lie Verif.MeshFn Verif.NLP

open scoped Matrix

set_option linter.unusedSectionVars false

/-- A numbering of an index type by `0 .. N - 1`. -/
structure Layout (B : Type*) (N : ℕ) where
  pos : B → ℕ
  lt : ∀ b, pos b < N
  inj : ∀ {a b}, pos a = pos b → a = b
  surj : ∀ i < N, ∃ b, pos b = i

section

variable {B : Type*} [Fintype B] {N : ℕ}

theorem Layout.sum {M : Type*} [AddCommMonoid M] (Λ : Layout B N) (φ : ℕ → M) : ∑ k ∈ Finset.range N, φ k = ∑ b, φ (Λ.pos b) := by
  symm
  refine Finset.sum_bij (fun b _ => Λ.pos b) (fun b _ => Finset.mem_range.2 (Λ.lt b)) (fun a _ b _ h => Λ.inj h) (fun i hi => ?_) fun _ _ => rfl
  obtain ⟨b, hb⟩ := Λ.surj i (Finset.mem_range.1 hi)
  exact ⟨b, Finset.mem_univ _, hb⟩

theorem block_eq {N k k' c c' : ℕ} (hc : c < N) (hc' : c' < N) (h : N * k + c = N * k' + c') : k = k' ∧ c = c' := by
  have h1 : (N * k + c) / N = k := by rw [Nat.mul_add_div (by omega), Nat.div_eq_of_lt hc, Nat.add_zero]
  have h2 : (N * k' + c') / N = k' := by rw [Nat.mul_add_div (by omega), Nat.div_eq_of_lt hc', Nat.add_zero]
  have : k = k' := by rw [← h1, ← h2, h]
  subst this
  exact ⟨rfl, by omega⟩

theorem Layout.target {F : Type*} [Zero F] (Λ : Layout B N) (S : B → B → F) :
    ∃ T : ℕ → ℕ → F, ∀ a b, T (Λ.pos a) (Λ.pos b) = S a b := by
  classical
  refine ⟨fun i j => if h : ∃ p : B × B, Λ.pos p.1 = i ∧ Λ.pos p.2 = j then S h.choose.1 h.choose.2 else 0, fun a b => ?_⟩
  have h : ∃ p : B × B, Λ.pos p.1 = Λ.pos a ∧ Λ.pos p.2 = Λ.pos b := ⟨(a, b), rfl, rfl⟩
  dsimp only
  rw [dif_pos h, Λ.inj h.choose_spec.1, Λ.inj h.choose_spec.2]

theorem Layout.target3 {F : Type*} [Zero F] (Λ : Layout B N) (S : B → B → B → F) :
    ∃ T : ℕ → ℕ → F, ∀ k a b, T (Λ.pos a) (N * Λ.pos k + Λ.pos b) = S k a b := by
  classical
  refine ⟨fun i j => if h : ∃ p : B × B × B, Λ.pos p.2.1 = i ∧ N * Λ.pos p.1 + Λ.pos p.2.2 = j then
    S h.choose.1 h.choose.2.1 h.choose.2.2 else 0, fun k a b => ?_⟩
  have h : ∃ p : B × B × B, Λ.pos p.2.1 = Λ.pos a ∧ N * Λ.pos p.1 + Λ.pos p.2.2 = N * Λ.pos k + Λ.pos b := ⟨(k, a, b), rfl, rfl⟩
  dsimp only
  obtain ⟨h1, h2⟩ := block_eq (Λ.lt _) (Λ.lt _) h.choose_spec.2
  rw [dif_pos h, Λ.inj h.choose_spec.1, Λ.inj h1, Λ.inj h2]

end

section

variable {F : Type*} [Field F]

theorem ofMat_val {r c : ℕ} (M : Matrix (Fin r) (Fin c) F) (i : Fin r) (j : Fin c) : (ofMat M).val i j = M i j := by
  unfold ofMat
  rw [dense_val, if_pos ⟨i.2, j.2⟩, dif_pos ⟨i.2, j.2⟩]

theorem ofMat_full {r c : ℕ} (M : Matrix (Fin r) (Fin c) F) : Full (ofMat M) := by
  intro i j hi hj
  change (if i < r ∧ j < c then some _ else none) ≠ none
  rw [if_pos ⟨hi, hj⟩]
  simp

/-- The block of a write contains a position. -/
def InW (w : ℕ × ℕ × Sp F) (i j : ℕ) : Prop := InBlock w.1 w.2.1 w.2.2.rows w.2.2.cols i j

/-- A sequence of writes that agree with a target. -/
theorem blockWrites_target (T : ℕ → ℕ → F) (l : List (ℕ × ℕ × Sp F)) (A : Sp F) (hfull : ∀ w ∈ l, Full w.2.2)
    (hfit : ∀ w ∈ l, w.1 + w.2.2.rows ≤ A.rows ∧ w.2.1 + w.2.2.cols ≤ A.cols)
    (hT : ∀ w ∈ l, ∀ r c, r < w.2.2.rows → c < w.2.2.cols → w.2.2.val r c = T (w.1 + r) (w.2.1 + c)) :
    ∃ B, blockWrites l A = some B ∧ SameShape A B ∧ (∀ i j, (∃ w ∈ l, InW w i j) → B.val i j = T i j) ∧
      ∀ i j, (¬∃ w ∈ l, InW w i j) → B.val i j = A.val i j := by
  induction l generalizing A with
  | nil => exact ⟨A, rfl, ⟨rfl, rfl, rfl⟩, by simp, by simp⟩
  | cons w l ih =>
    obtain ⟨r0, c0, S⟩ := w
    have hw := hfit _ List.mem_cons_self
    obtain ⟨A1, hA1, hs1, hv1, ho1⟩ := block_write_full A r0 c0 S (hfull _ List.mem_cons_self) 1 false hw.1 hw.2
    obtain ⟨B, hB, hs2, hv2, ho2⟩ := ih A1 (fun w hw => hfull w (List.mem_cons_of_mem _ hw)) (fun w hw => by
      rw [hs1.1, hs1.2.1]; exact hfit w (List.mem_cons_of_mem _ hw)) (fun w hw => hT w (List.mem_cons_of_mem _ hw))
    refine ⟨B, ?_, hs1.trans hs2, fun i j hij => ?_, fun i j hij => ?_⟩
    · rw [blockWrites, hA1]; exact hB
    · by_cases hl : ∃ w ∈ l, InW w i j
      · exact hv2 i j hl
      · rw [ho2 i j hl]
        obtain ⟨w, hwm, hw⟩ := hij
        rcases List.mem_cons.1 hwm with rfl | hwm
        · obtain ⟨⟨h1, h2⟩, h3, h4⟩ := hw
          dsimp only at h1 h2 h3 h4
          have e1 : i = r0 + (i - r0) := by omega
          have e2 : j = c0 + (j - c0) := by omega
          have := hT _ List.mem_cons_self (i - r0) (j - c0) (by dsimp only; omega) (by dsimp only; omega)
          dsimp only at this
          rw [e1, e2, hv1 _ _ (by omega) (by omega) (by simp), one_mul, this]
        · exact absurd ⟨w, hwm, hw⟩ hl
    · rw [ho2 i j fun ⟨w, hwm, hw⟩ => hij ⟨w, List.mem_cons_of_mem _ hwm, hw⟩]
      unfold Sp.val
      rw [ho1 i j fun h => hij ⟨_, List.mem_cons_self, h.1⟩]

theorem spMul_spec (A B : Sp F) (h : A.cols = B.rows) :
    ∃ C, spMul A B = some C ∧ C.rows = A.rows ∧ C.cols = B.cols ∧
      ∀ i j, i < A.rows → j < B.cols → C.val i j = ∑ k ∈ Finset.range A.cols, A.val i k * B.val k j := by
  refine ⟨_, if_pos h, rfl, rfl, fun i j hi hj => ?_⟩
  rw [dense_val, if_pos ⟨hi, hj⟩]

end

/-! ### The layouts -/

/-- `(t, x, u)`. -/
def argLayout (nx nu : ℕ) : Layout (Arg nx nu) (nVar nx nu) where
  pos := Arg.pos
  lt a := by
    unfold nVar
    cases a with
    | t => simp [Arg.pos]
    | x k => have := k.2; simp only [Arg.pos]; omega
    | u k => have := k.2; simp only [Arg.pos]; omega
  inj := by
    intro a b h
    cases a with
    | t => cases b <;> simp only [Arg.pos] at h <;> first | rfl | omega
    | x k =>
      have := k.2
      cases b with
      | t => simp only [Arg.pos] at h; omega
      | x l => simp only [Arg.pos] at h; congr 1; ext; omega
      | u l => simp only [Arg.pos] at h; omega
    | u k =>
      cases b with
      | t => simp only [Arg.pos] at h; omega
      | x l => have := l.2; simp only [Arg.pos] at h; omega
      | u l => simp only [Arg.pos] at h; congr 1; ext; omega
  surj i hi := by
    unfold nVar at hi
    by_cases h0 : i = 0
    · exact ⟨.t, by simp [Arg.pos, h0]⟩
    · by_cases h1 : i < 1 + nx
      · exact ⟨.x ⟨i - 1, by omega⟩, by simp only [Arg.pos]; omega⟩
      · exact ⟨.u ⟨i - 1 - nx, by omega⟩, by simp only [Arg.pos]; omega⟩

/-- `(tf, x0, xf, q)`. -/
def eargLayout (nx nq : ℕ) : Layout (EArg nx nq) (nVarE nx nq) where
  pos := EArg.pos
  lt a := by
    unfold nVarE
    cases a with
    | tf => simp [EArg.pos]
    | x0 k => have := k.2; simp only [EArg.pos]; omega
    | xf k => have := k.2; simp only [EArg.pos]; omega
    | q k => have := k.2; simp only [EArg.pos]; omega
  inj := by
    intro a b h
    cases a with
    | tf => cases b <;> simp only [EArg.pos] at h <;> first | rfl | omega
    | x0 k =>
      have := k.2
      cases b with
      | x0 l => simp only [EArg.pos] at h; congr 1; ext; omega
      | _ => simp only [EArg.pos] at h; omega
    | xf k =>
      have := k.2
      cases b with
      | xf l => simp only [EArg.pos] at h; congr 1; ext; omega
      | x0 l => have := l.2; simp only [EArg.pos] at h; omega
      | _ => simp only [EArg.pos] at h; omega
    | q k =>
      cases b with
      | q l => simp only [EArg.pos] at h; congr 1; ext; omega
      | tf => simp only [EArg.pos] at h; omega
      | x0 l => have := l.2; simp only [EArg.pos] at h; omega
      | xf l => have := l.2; simp only [EArg.pos] at h; omega
  surj i hi := by
    unfold nVarE at hi
    by_cases h0 : i = 0
    · exact ⟨.tf, by simp [EArg.pos, h0]⟩
    · by_cases h1 : i < 1 + nx
      · exact ⟨.x0 ⟨i - 1, by omega⟩, by simp only [EArg.pos]; omega⟩
      · by_cases h2 : i < 1 + 2 * nx
        · exact ⟨.xf ⟨i - 1 - nx, by omega⟩, by simp only [EArg.pos]; omega⟩
        · exact ⟨.q ⟨i - 1 - 2 * nx, by omega⟩, by simp only [EArg.pos]; omega⟩

/-! ### What the writes of `update_joplus` and `update_hoplus` leave -/

section

variable {F : Type*} [Field F] {X U : Type*} {nx nu nq : ℕ}

/-- The right Jacobian of `(t, xl(t) ⊕ e, ul(t) ⊕ v)`. -/
def jopT (LX : LieOps X F nx) (LU : LieOps U F nu) (e : Fin nx → F) (v : Fin nu → F) (dxl : Fin nx → F) (dul : Fin nu → F) :
    Arg nx nu → Arg nx nu → F
  | .t, .t => 1
  | .x i, .x j => LX.drExp e i j
  | .u i, .u j => LU.drExp v i j
  | .x i, .t => adVel LX e dxl i
  | .u i, .t => adVel LU v dul i
  | _, _ => 0

/-- Its derivatives, without those of `dxl` and `dul`. -/
def hopT (LX : LieOps X F nx) (LU : LieOps U F nu) (e : Fin nx → F) (v : Fin nu → F) (dxl : Fin nx → F) (dul : Fin nu → F) :
    Arg nx nu → Arg nx nu → Arg nx nu → F
  | .x k, .x r, .x c => LX.d2rExp e k r c
  | .u k, .u r, .u c => LU.d2rExp v k r c
  | .x k, .t, .x c => dAdexp LX e dxl k c
  | .u k, .t, .u c => dAdexp LU v dul k c
  | _, _, _ => 0

/-- The buffer of the Jacobian: outside of the blocks that are written there are zeros. -/
def JopOk (nx nu : ℕ) (A : Sp F) : Prop := A.rows = nVar nx nu ∧ A.cols = nVar nx nu ∧
  ∀ a b : Arg nx nu, (match a, b with
    | .t, .x _ => True | .t, .u _ => True | .x _, .u _ => True | .u _, .x _ => True | _, _ => False) → A.val a.pos b.pos = 0

def HopOk (nx nu : ℕ) (A : Sp F) : Prop := A.rows = nVar nx nu ∧ A.cols = nVar nx nu * nVar nx nu ∧
  ∀ k a b : Arg nx nu, (match k, a, b with
    | .x _, .x _, .x _ => False | .u _, .u _, .u _ => False | .x _, .t, .x _ => False | .u _, .t, .u _ => False | _, _, _ => True) →
      A.val a.pos (nVar nx nu * k.pos + b.pos) = 0

theorem joplus_spec (LX : LieOps X F nx) (LU : LieOps U F nu) (e : Fin nx → F) (v : Fin nu → F) (dxl : Fin nx → F) (dul : Fin nu → F) (A : Sp F)
    (hA : JopOk nx nu A) :
    ∃ B, blockWrites (joplusWrites LX LU e v dxl dul) A = some B ∧ JopOk nx nu B ∧ ∀ a b : Arg nx nu, B.val a.pos b.pos = jopT LX LU e v dxl dul a b := by
  obtain ⟨hr, hc, hz⟩ := hA
  obtain ⟨T, hT⟩ := (argLayout nx nu).target (jopT LX LU e v dxl dul)
  change ∀ a b : Arg nx nu, T a.pos b.pos = _ at hT
  have hmem : ∀ w, w ∈ joplusWrites LX LU e v dxl dul ↔ w = (tB, tB, ofMat (1 : Matrix (Fin 1) (Fin 1) F)) ∨ w = (xB, xB, ofMat (LX.drExp e)) ∨
      w = (uB nx, uB nx, ofMat (LU.drExp v)) ∨ w = (xB, tB, ofCol (adVel LX e dxl)) ∨ w = (uB nx, tB, ofCol (adVel LU v dul)) := by
    intro w
    simp [joplusWrites]
  obtain ⟨B, hB, hs, hin, hout⟩ := blockWrites_target T (joplusWrites LX LU e v dxl dul) A
    (by
      intro w hw
      rcases (hmem w).1 hw with rfl | rfl | rfl | rfl | rfl <;> exact ofMat_full _)
    (by
      intro w hw
      rw [hr, hc]
      rcases (hmem w).1 hw with rfl | rfl | rfl | rfl | rfl <;>
        simp only [ofMat, ofCol, dense, tB, xB, uB, nVar] <;> omega)
    (by
      intro w hw r c h1 h2
      rcases (hmem w).1 hw with rfl | rfl | rfl | rfl | rfl
      · change r < 1 at h1
        change c < 1 at h2
        obtain rfl : r = 0 := by omega
        obtain rfl : c = 0 := by omega
        have := hT .t .t
        simp only [Arg.pos, jopT] at this
        simp only [tB, Nat.add_zero]
        rw [this]
        exact (ofMat_val _ (0 : Fin 1) (0 : Fin 1)).trans (by simp)
      · have := hT (.x ⟨r, h1⟩) (.x ⟨c, h2⟩)
        simp only [Arg.pos, jopT] at this
        simp only [xB, tB, Nat.zero_add]
        rw [this]
        exact ofMat_val _ ⟨r, h1⟩ ⟨c, h2⟩
      · have := hT (.u ⟨r, h1⟩) (.u ⟨c, h2⟩)
        simp only [Arg.pos, jopT] at this
        simp only [uB, xB, tB, Nat.zero_add]
        rw [this]
        exact ofMat_val _ ⟨r, h1⟩ ⟨c, h2⟩
      · change c < 1 at h2
        obtain rfl : c = 0 := by omega
        have := hT (.x ⟨r, h1⟩) .t
        simp only [Arg.pos, jopT] at this
        simp only [xB, tB, Nat.zero_add, Nat.add_zero]
        rw [this]
        exact ofMat_val _ ⟨r, h1⟩ (0 : Fin 1)
      · change c < 1 at h2
        obtain rfl : c = 0 := by omega
        have := hT (.u ⟨r, h1⟩) .t
        simp only [Arg.pos, jopT] at this
        simp only [uB, xB, tB, Nat.zero_add, Nat.add_zero]
        rw [this]
        exact ofMat_val _ ⟨r, h1⟩ (0 : Fin 1))
  have hval : ∀ a b : Arg nx nu, B.val a.pos b.pos = jopT LX LU e v dxl dul a b := by
    intro a b
    by_cases hw : ∃ w ∈ joplusWrites LX LU e v dxl dul, InW w a.pos b.pos
    · rw [hin _ _ hw, hT]
    · rw [hout _ _ hw]
      cases a with
      | t =>
        cases b with
        | t => exact absurd ⟨_, (hmem _).2 (Or.inl rfl), by simp [InW, InBlock, ofMat, dense, Arg.pos, tB]⟩ hw
        | x l => exact hz _ _ trivial
        | u l => exact hz _ _ trivial
      | x k =>
        have hk := k.2
        cases b with
        | t => exact absurd ⟨_, (hmem _).2 (Or.inr (Or.inr (Or.inr (Or.inl rfl)))), by simp [InW, InBlock, ofMat, ofCol, dense, Arg.pos, tB, xB]⟩ hw
        | x l => exact absurd ⟨_, (hmem _).2 (Or.inr (Or.inl rfl)), by simp [InW, InBlock, ofMat, dense, Arg.pos, tB, xB]⟩ hw
        | u l => exact hz _ _ trivial
      | u k =>
        cases b with
        | t => exact absurd ⟨_, (hmem _).2 (Or.inr (Or.inr (Or.inr (Or.inr rfl)))), by simp [InW, InBlock, ofMat, ofCol, dense, Arg.pos, tB, xB, uB]⟩ hw
        | x l => exact hz _ _ trivial
        | u l => exact absurd ⟨_, (hmem _).2 (Or.inr (Or.inr (Or.inl rfl))), by simp [InW, InBlock, ofMat, dense, Arg.pos, tB, xB, uB]⟩ hw
  refine ⟨B, hB, ⟨hs.1.trans hr, hs.2.1.trans hc, fun a b hab => ?_⟩, hval⟩
  rw [hval]
  cases a <;> cases b <;> first | exact absurd hab id | rfl

theorem mul_succ_le {N k m : ℕ} (h : k < m) : N * k + N ≤ N * m := by
  calc N * k + N = N * (k + 1) := by ring
    _ ≤ N * m := Nat.mul_le_mul_left N h

theorem hoplus_spec (LX : LieOps X F nx) (LU : LieOps U F nu) (e : Fin nx → F) (v : Fin nu → F) (dxl : Fin nx → F) (dul : Fin nu → F) (A : Sp F)
    (hA : HopOk nx nu A) :
    ∃ B, blockWrites (hoplusWrites LX LU e v dxl dul) A = some B ∧ HopOk nx nu B ∧
      ∀ k a b : Arg nx nu, B.val a.pos (nVar nx nu * k.pos + b.pos) = hopT LX LU e v dxl dul k a b := by
  obtain ⟨hr, hc, hz⟩ := hA
  obtain ⟨T, hT⟩ := (argLayout nx nu).target3 (hopT LX LU e v dxl dul)
  change ∀ k a b : Arg nx nu, T a.pos (nVar nx nu * k.pos + b.pos) = _ at hT
  have hmem : ∀ w, w ∈ hoplusWrites LX LU e v dxl dul ↔ (∃ k : Fin nx, (xB, nVar nx nu * (xB + k) + xB, ofMat (LX.d2rExp e k)) = w) ∨
      (∃ k : Fin nu, (uB nx, nVar nx nu * (uB nx + k) + uB nx, ofMat (LU.d2rExp v k)) = w) ∨
      (∃ k : Fin nx, (tB, nVar nx nu * (xB + k) + xB, ofMat (r := 1) fun _ c => dAdexp LX e dxl k c) = w) ∨
      ∃ k : Fin nu, (tB, nVar nx nu * (uB nx + k) + uB nx, ofMat (r := 1) fun _ c => dAdexp LU v dul k c) = w := by
    intro w
    simp only [hoplusWrites, List.mem_append, List.mem_ofFn, Set.mem_range, or_assoc]
  obtain ⟨B, hB, hs, hin, hout⟩ := blockWrites_target T (hoplusWrites LX LU e v dxl dul) A
    (by
      intro w hw
      rcases (hmem w).1 hw with ⟨k, rfl⟩ | ⟨k, rfl⟩ | ⟨k, rfl⟩ | ⟨k, rfl⟩ <;> exact ofMat_full _)
    (by
      intro w hw
      rw [hr, hc]
      rcases (hmem w).1 hw with ⟨k, rfl⟩ | ⟨k, rfl⟩ | ⟨k, rfl⟩ | ⟨k, rfl⟩ <;>
        simp only [ofMat, dense, tB, xB, uB, Nat.zero_add]
      · have := mul_succ_le (N := nVar nx nu) (k := 1 + k) (m := nVar nx nu) (by have := k.2; unfold nVar; omega)
        have h2 : nVar nx nu = 1 + nx + nu := rfl
        exact ⟨by omega, by omega⟩
      · have := mul_succ_le (N := nVar nx nu) (k := 1 + nx + k) (m := nVar nx nu) (by have := k.2; unfold nVar; omega)
        have h2 : nVar nx nu = 1 + nx + nu := rfl
        exact ⟨by omega, by omega⟩
      · have := mul_succ_le (N := nVar nx nu) (k := 1 + k) (m := nVar nx nu) (by have := k.2; unfold nVar; omega)
        have h2 : nVar nx nu = 1 + nx + nu := rfl
        exact ⟨by omega, by omega⟩
      · have := mul_succ_le (N := nVar nx nu) (k := 1 + nx + k) (m := nVar nx nu) (by have := k.2; unfold nVar; omega)
        have h2 : nVar nx nu = 1 + nx + nu := rfl
        exact ⟨by omega, by omega⟩)
    (by
      intro w hw r c h1 h2
      rcases (hmem w).1 hw with ⟨k, rfl⟩ | ⟨k, rfl⟩ | ⟨k, rfl⟩ | ⟨k, rfl⟩
      · have := hT (.x k) (.x ⟨r, h1⟩) (.x ⟨c, h2⟩)
        simp only [Arg.pos, hopT] at this
        simp only [xB, tB, Nat.zero_add, Nat.add_assoc]
        rw [this]
        exact ofMat_val _ ⟨r, h1⟩ ⟨c, h2⟩
      · have := hT (.u k) (.u ⟨r, h1⟩) (.u ⟨c, h2⟩)
        simp only [Arg.pos, hopT] at this
        simp only [uB, xB, tB, Nat.zero_add]
        rw [Nat.add_assoc (nVar nx nu * (1 + nx + k)), this]
        exact ofMat_val _ ⟨r, h1⟩ ⟨c, h2⟩
      · change r < 1 at h1
        obtain rfl : r = 0 := by omega
        have := hT (.x k) .t (.x ⟨c, h2⟩)
        simp only [Arg.pos, hopT] at this
        simp only [xB, tB, Nat.zero_add, Nat.add_assoc]
        rw [this]
        exact ofMat_val (r := 1) (fun _ c => dAdexp LX e dxl k c) 0 ⟨c, h2⟩
      · change r < 1 at h1
        obtain rfl : r = 0 := by omega
        have := hT (.u k) .t (.u ⟨c, h2⟩)
        simp only [Arg.pos, hopT] at this
        simp only [uB, xB, tB, Nat.zero_add]
        rw [Nat.add_assoc (nVar nx nu * (1 + nx + k)), this]
        exact ofMat_val (r := 1) (fun _ c => dAdexp LU v dul k c) 0 ⟨c, h2⟩)
  have hval : ∀ k a b : Arg nx nu, B.val a.pos (nVar nx nu * k.pos + b.pos) = hopT LX LU e v dxl dul k a b := by
    intro k a b
    by_cases hw : ∃ w ∈ hoplusWrites LX LU e v dxl dul, InW w a.pos (nVar nx nu * k.pos + b.pos)
    · rw [hin _ _ hw, hT]
    · rw [hout _ _ hw]
      cases k with
      | t => exact hz _ _ _ trivial
      | x k =>
        cases a with
        | t =>
          cases b with
          | t => exact hz _ _ _ trivial
          | x c =>
            exact absurd ⟨_, (hmem _).2 (Or.inr (Or.inr (Or.inl ⟨k, rfl⟩))), by
              have := c.2
              simp only [InW, InBlock, ofMat, dense, Arg.pos, tB, xB, Nat.zero_add]; refine ⟨⟨?_, ?_⟩, ?_, ?_⟩ <;> omega⟩ hw
          | u c => exact hz _ _ _ trivial
        | x r =>
          cases b with
          | t => exact hz _ _ _ trivial
          | x c =>
            exact absurd ⟨_, (hmem _).2 (Or.inl ⟨k, rfl⟩), by
              have := c.2
              have := r.2
              simp only [InW, InBlock, ofMat, dense, Arg.pos, tB, xB, Nat.zero_add]; refine ⟨⟨?_, ?_⟩, ?_, ?_⟩ <;> omega⟩ hw
          | u c => exact hz _ _ _ trivial
        | u r => exact hz _ _ _ trivial
      | u k =>
        cases a with
        | t =>
          cases b with
          | t => exact hz _ _ _ trivial
          | x c => exact hz _ _ _ trivial
          | u c =>
            exact absurd ⟨_, (hmem _).2 (Or.inr (Or.inr (Or.inr ⟨k, rfl⟩))), by
              have := c.2
              simp only [InW, InBlock, ofMat, dense, Arg.pos, tB, xB, uB, Nat.zero_add]; refine ⟨⟨?_, ?_⟩, ?_, ?_⟩ <;> omega⟩ hw
        | x r => exact hz _ _ _ trivial
        | u r =>
          cases b with
          | t => exact hz _ _ _ trivial
          | x c => exact hz _ _ _ trivial
          | u c =>
            exact absurd ⟨_, (hmem _).2 (Or.inr (Or.inl ⟨k, rfl⟩)), by
              have := c.2
              have := r.2
              simp only [InW, InBlock, ofMat, dense, Arg.pos, tB, xB, uB, Nat.zero_add]; refine ⟨⟨?_, ?_⟩, ?_, ?_⟩ <;> omega⟩ hw
  refine ⟨B, hB, ⟨hs.1.trans hr, hs.2.1.trans hc, fun k a b hab => ?_⟩, hval⟩
  rw [hval]
  cases k <;> cases a <;> cases b <;> first | exact absurd hab id | rfl

/-! ### End points -/

/-- The right Jacobian of `(tf, xl(0) ⊕ e0, xl(tf) ⊕ ef, q)`. -/
def jopTE (nq : ℕ) (L : LieOps X F nx) (e0 ef dxlf : Fin nx → F) : EArg nx nq → EArg nx nq → F
  | .tf, .tf => 1
  | .x0 i, .x0 j => L.drExp e0 i j
  | .xf i, .xf j => L.drExp ef i j
  | .q i, .q j => (1 : Matrix (Fin nq) (Fin nq) F) i j
  | .xf i, .tf => adVel L ef dxlf i
  | _, _ => 0

/-- Its derivatives, without that of `dxl`. -/
def hopTE (nq : ℕ) (L : LieOps X F nx) (e0 ef dxlf : Fin nx → F) : EArg nx nq → EArg nx nq → EArg nx nq → F
  | .x0 k, .x0 r, .x0 c => L.d2rExp e0 k r c
  | .xf k, .xf r, .xf c => L.d2rExp ef k r c
  | .xf k, .tf, .xf c => dAdexp L ef dxlf k c
  | _, _, _ => 0

def JopOkE (nx nq : ℕ) (A : Sp F) : Prop := A.rows = nVarE nx nq ∧ A.cols = nVarE nx nq ∧
  ∀ a b : EArg nx nq, (match a, b with
    | .tf, .tf => False | .x0 _, .x0 _ => False | .xf _, .xf _ => False | .q _, .q _ => False | .xf _, .tf => False | _, _ => True) → A.val a.pos b.pos = 0

def HopOkE (nx nq : ℕ) (A : Sp F) : Prop := A.rows = nVarE nx nq ∧ A.cols = nVarE nx nq * nVarE nx nq ∧
  ∀ k a b : EArg nx nq, (match k, a, b with
    | .x0 _, .x0 _, .x0 _ => False | .xf _, .xf _, .xf _ => False | .xf _, .tf, .xf _ => False | _, _, _ => True) →
      A.val a.pos (nVarE nx nq * k.pos + b.pos) = 0

theorem joplusE_spec (L : LieOps X F nx) (e0 ef dxlf : Fin nx → F) (A : Sp F) (hA : JopOkE nx nq A) :
    ∃ B, blockWrites (joplusWritesE nq L e0 ef dxlf) A = some B ∧ JopOkE nx nq B ∧ ∀ a b : EArg nx nq, B.val a.pos b.pos = jopTE nq L e0 ef dxlf a b := by
  obtain ⟨hr, hc, hz⟩ := hA
  obtain ⟨T, hT⟩ := (eargLayout nx nq).target (jopTE nq L e0 ef dxlf)
  change ∀ a b : EArg nx nq, T a.pos b.pos = _ at hT
  have hmem : ∀ w, w ∈ joplusWritesE nq L e0 ef dxlf ↔ w = (tfB, tfB, ofMat (1 : Matrix (Fin 1) (Fin 1) F)) ∨ w = (x0B, x0B, ofMat (L.drExp e0)) ∨
      w = (xfB nx, xfB nx, ofMat (L.drExp ef)) ∨ w = (qB nx, qB nx, ofMat (1 : Matrix (Fin nq) (Fin nq) F)) ∨ w = (xfB nx, tfB, ofCol (adVel L ef dxlf)) := by
    intro w
    simp [joplusWritesE]
  obtain ⟨B, hB, hs, hin, hout⟩ := blockWrites_target T (joplusWritesE nq L e0 ef dxlf) A
    (by
      intro w hw
      rcases (hmem w).1 hw with rfl | rfl | rfl | rfl | rfl <;> exact ofMat_full _)
    (by
      intro w hw
      rw [hr, hc]
      rcases (hmem w).1 hw with rfl | rfl | rfl | rfl | rfl <;>
        simp only [ofMat, ofCol, dense, tfB, x0B, xfB, qB, nVarE] <;> omega)
    (by
      intro w hw r c h1 h2
      rcases (hmem w).1 hw with rfl | rfl | rfl | rfl | rfl
      · change r < 1 at h1
        change c < 1 at h2
        obtain rfl : r = 0 := by omega
        obtain rfl : c = 0 := by omega
        have := hT .tf .tf
        simp only [EArg.pos, jopTE] at this
        simp only [tfB, Nat.add_zero]
        rw [this]
        exact (ofMat_val _ (0 : Fin 1) (0 : Fin 1)).trans (by simp)
      · have := hT (.x0 ⟨r, h1⟩) (.x0 ⟨c, h2⟩)
        simp only [EArg.pos, jopTE] at this
        simp only [x0B, tfB, Nat.zero_add]
        rw [this]
        exact ofMat_val _ ⟨r, h1⟩ ⟨c, h2⟩
      · have := hT (.xf ⟨r, h1⟩) (.xf ⟨c, h2⟩)
        simp only [EArg.pos, jopTE] at this
        simp only [xfB, x0B, tfB, Nat.zero_add]
        rw [this]
        exact ofMat_val _ ⟨r, h1⟩ ⟨c, h2⟩
      · have := hT (.q ⟨r, h1⟩) (.q ⟨c, h2⟩)
        simp only [EArg.pos, jopTE] at this
        simp only [qB, xfB, x0B, tfB, Nat.zero_add]
        rw [show 1 + nx + nx = 1 + 2 * nx by omega, this]
        exact ofMat_val _ ⟨r, h1⟩ ⟨c, h2⟩
      · change c < 1 at h2
        obtain rfl : c = 0 := by omega
        have := hT (.xf ⟨r, h1⟩) .tf
        simp only [EArg.pos, jopTE] at this
        simp only [xfB, x0B, tfB, Nat.zero_add, Nat.add_zero]
        rw [this]
        exact ofMat_val _ ⟨r, h1⟩ (0 : Fin 1))
  have hval : ∀ a b : EArg nx nq, B.val a.pos b.pos = jopTE nq L e0 ef dxlf a b := by
    intro a b
    by_cases hw : ∃ w ∈ joplusWritesE nq L e0 ef dxlf, InW w a.pos b.pos
    · rw [hin _ _ hw, hT]
    · rw [hout _ _ hw]
      cases a with
      | tf =>
        cases b with
        | tf => exact absurd ⟨_, (hmem _).2 (Or.inl rfl), by simp [InW, InBlock, ofMat, dense, EArg.pos, tfB]⟩ hw
        | _ => exact hz _ _ trivial
      | x0 k =>
        cases b with
        | x0 l => exact absurd ⟨_, (hmem _).2 (Or.inr (Or.inl rfl)), by simp [InW, InBlock, ofMat, dense, EArg.pos, tfB, x0B]⟩ hw
        | _ => exact hz _ _ trivial
      | xf k =>
        cases b with
        | tf => exact absurd ⟨_, (hmem _).2 (Or.inr (Or.inr (Or.inr (Or.inr rfl)))), by simp [InW, InBlock, ofMat, ofCol, dense, EArg.pos, tfB, x0B, xfB]⟩ hw
        | xf l => exact absurd ⟨_, (hmem _).2 (Or.inr (Or.inr (Or.inl rfl))), by simp [InW, InBlock, ofMat, dense, EArg.pos, tfB, x0B, xfB]⟩ hw
        | _ => exact hz _ _ trivial
      | q k =>
        cases b with
        | q l =>
          exact absurd ⟨_, (hmem _).2 (Or.inr (Or.inr (Or.inr (Or.inl rfl)))), by
            have := k.2
            have := l.2
            simp only [InW, InBlock, ofMat, dense, EArg.pos, tfB, x0B, xfB, qB]; refine ⟨⟨?_, ?_⟩, ?_, ?_⟩ <;> omega⟩ hw
        | _ => exact hz _ _ trivial
  refine ⟨B, hB, ⟨hs.1.trans hr, hs.2.1.trans hc, fun a b hab => ?_⟩, hval⟩
  rw [hval]
  cases a <;> cases b <;> first | exact absurd hab id | rfl

theorem hoplusE_spec (L : LieOps X F nx) (e0 ef dxlf : Fin nx → F) (A : Sp F) (hA : HopOkE nx nq A) :
    ∃ B, blockWrites (hoplusWritesE nq L e0 ef dxlf) A = some B ∧ HopOkE nx nq B ∧
      ∀ k a b : EArg nx nq, B.val a.pos (nVarE nx nq * k.pos + b.pos) = hopTE nq L e0 ef dxlf k a b := by
  obtain ⟨hr, hc, hz⟩ := hA
  obtain ⟨T, hT⟩ := (eargLayout nx nq).target3 (hopTE nq L e0 ef dxlf)
  change ∀ k a b : EArg nx nq, T a.pos (nVarE nx nq * k.pos + b.pos) = _ at hT
  have hmem : ∀ w, w ∈ hoplusWritesE nq L e0 ef dxlf ↔ (∃ k : Fin nx, (x0B, nVarE nx nq * (x0B + k) + x0B, ofMat (L.d2rExp e0 k)) = w) ∨
      (∃ k : Fin nx, (xfB nx, nVarE nx nq * (xfB nx + k) + xfB nx, ofMat (L.d2rExp ef k)) = w) ∨
      (∃ k : Fin nx, (tfB, nVarE nx nq * (xfB nx + k) + xfB nx, ofMat (r := 1) fun _ c => dAdexp L ef dxlf k c) = w) := by
    intro w
    simp only [hoplusWritesE, List.mem_append, List.mem_ofFn, Set.mem_range, or_assoc]
  obtain ⟨B, hB, hs, hin, hout⟩ := blockWrites_target T (hoplusWritesE nq L e0 ef dxlf) A
    (by
      intro w hw
      rcases (hmem w).1 hw with ⟨k, rfl⟩ | ⟨k, rfl⟩ | ⟨k, rfl⟩ <;> exact ofMat_full _)
    (by
      intro w hw
      rw [hr, hc]
      have h2 : nVarE nx nq = 1 + 2 * nx + nq := rfl
      rcases (hmem w).1 hw with ⟨k, rfl⟩ | ⟨k, rfl⟩ | ⟨k, rfl⟩ <;>
        simp only [ofMat, dense, tfB, x0B, xfB, Nat.zero_add]
      · have := mul_succ_le (N := nVarE nx nq) (k := 1 + k) (m := nVarE nx nq) (by have := k.2; unfold nVarE; omega)
        exact ⟨by omega, by omega⟩
      · have := mul_succ_le (N := nVarE nx nq) (k := 1 + nx + k) (m := nVarE nx nq) (by have := k.2; unfold nVarE; omega)
        exact ⟨by omega, by omega⟩
      · have := mul_succ_le (N := nVarE nx nq) (k := 1 + nx + k) (m := nVarE nx nq) (by have := k.2; unfold nVarE; omega)
        exact ⟨by omega, by omega⟩)
    (by
      intro w hw r c h1 h2
      rcases (hmem w).1 hw with ⟨k, rfl⟩ | ⟨k, rfl⟩ | ⟨k, rfl⟩
      · have := hT (.x0 k) (.x0 ⟨r, h1⟩) (.x0 ⟨c, h2⟩)
        simp only [EArg.pos, hopTE] at this
        simp only [x0B, tfB, Nat.zero_add, Nat.add_assoc]
        rw [this]
        exact ofMat_val _ ⟨r, h1⟩ ⟨c, h2⟩
      · have := hT (.xf k) (.xf ⟨r, h1⟩) (.xf ⟨c, h2⟩)
        simp only [EArg.pos, hopTE] at this
        simp only [xfB, x0B, tfB, Nat.zero_add]
        rw [Nat.add_assoc (nVarE nx nq * (1 + nx + k)), this]
        exact ofMat_val _ ⟨r, h1⟩ ⟨c, h2⟩
      · change r < 1 at h1
        obtain rfl : r = 0 := by omega
        have := hT (.xf k) .tf (.xf ⟨c, h2⟩)
        simp only [EArg.pos, hopTE] at this
        simp only [xfB, x0B, tfB, Nat.zero_add]
        rw [Nat.add_assoc (nVarE nx nq * (1 + nx + k)), this]
        exact ofMat_val (r := 1) (fun _ c => dAdexp L ef dxlf k c) 0 ⟨c, h2⟩)
  have hval : ∀ k a b : EArg nx nq, B.val a.pos (nVarE nx nq * k.pos + b.pos) = hopTE nq L e0 ef dxlf k a b := by
    intro k a b
    by_cases hw : ∃ w ∈ hoplusWritesE nq L e0 ef dxlf, InW w a.pos (nVarE nx nq * k.pos + b.pos)
    · rw [hin _ _ hw, hT]
    · rw [hout _ _ hw]
      cases k with
      | tf => exact hz _ _ _ trivial
      | q k => exact hz _ _ _ trivial
      | x0 k =>
        cases a with
        | x0 r =>
          cases b with
          | x0 c =>
            exact absurd ⟨_, (hmem _).2 (Or.inl ⟨k, rfl⟩), by
              have := c.2
              have := r.2
              simp only [InW, InBlock, ofMat, dense, EArg.pos, tfB, x0B, Nat.zero_add]; refine ⟨⟨?_, ?_⟩, ?_, ?_⟩ <;> omega⟩ hw
          | _ => exact hz _ _ _ trivial
        | _ => exact hz _ _ _ trivial
      | xf k =>
        cases a with
        | tf =>
          cases b with
          | xf c =>
            exact absurd ⟨_, (hmem _).2 (Or.inr (Or.inr ⟨k, rfl⟩)), by
              have := c.2
              simp only [InW, InBlock, ofMat, dense, EArg.pos, tfB, x0B, xfB, Nat.zero_add]; refine ⟨⟨?_, ?_⟩, ?_, ?_⟩ <;> omega⟩ hw
          | _ => exact hz _ _ _ trivial
        | xf r =>
          cases b with
          | xf c =>
            exact absurd ⟨_, (hmem _).2 (Or.inr (Or.inl ⟨k, rfl⟩)), by
              have := c.2
              have := r.2
              simp only [InW, InBlock, ofMat, dense, EArg.pos, tfB, x0B, xfB, Nat.zero_add]; refine ⟨⟨?_, ?_⟩, ?_, ?_⟩ <;> omega⟩ hw
          | _ => exact hz _ _ _ trivial
        | _ => exact hz _ _ _ trivial
  refine ⟨B, hB, ⟨hs.1.trans hr, hs.2.1.trans hc, fun k a b hab => ?_⟩, hval⟩
  rw [hval]
  cases k <;> cases a <;> cases b <;> first | exact absurd hab id | rfl

/-! ### The two products -/

variable {B : Type*} [Fintype B] {N : ℕ}

/-- `J_ = Jf * Joplus_`. -/
theorem jac_product (Λ : Layout B N) {nf : ℕ} (Jf jop : Sp F) (h1 : Jf.rows = nf) (h2 : Jf.cols = N) (h3 : jop.rows = N) (h4 : jop.cols = N) :
    ∃ J, spMul Jf jop = some J ∧ J.rows = nf ∧ J.cols = N ∧ ∀ (j : Fin nf) (a : B), J.val j (Λ.pos a) = ∑ k, Jf.val j (Λ.pos k) * jop.val (Λ.pos k) (Λ.pos a) := by
  obtain ⟨J, hJ, hr, hc, hv⟩ := spMul_spec Jf jop (h2.trans h3.symm)
  refine ⟨J, hJ, hr.trans h1, hc.trans h4, fun j a => ?_⟩
  rw [hv _ _ (by rw [h1]; exact j.2) (by rw [h4]; exact Λ.lt a), h2, Λ.sum]

/-- `set_zero(H_); d2r_fog(H_, Jf, Hf, Joplus_, Hoplus_)`. -/
theorem hess_product (Λ : Layout B N) {nf : ℕ} (H Jf Hf jop hop : Sp F) (h1 : Jf.rows = nf) (h2 : Jf.cols = N) (h3 : jop.rows = N) (h4 : jop.cols = N)
    (h5 : Hf.rows = N) (h6 : Hf.cols = nf * N) (h7 : hop.rows = N) (h8 : hop.cols = N * N) (h9 : H.rows = N) (h10 : H.cols = nf * N) :
    ∃ H', d2rFog (setZero H) Jf Hf jop hop = some H' ∧ H'.rows = N ∧ H'.cols = nf * N ∧ ∀ (j : Fin nf) (a b : B), H'.val (Λ.pos a) (N * j + Λ.pos b) =
      (∑ k, ∑ l, Hf.val (Λ.pos k) (N * j + Λ.pos l) * jop.val (Λ.pos l) (Λ.pos b) * jop.val (Λ.pos k) (Λ.pos a)) +
        ∑ k, Jf.val j (Λ.pos k) * hop.val (Λ.pos a) (N * Λ.pos k + Λ.pos b) := by
  obtain ⟨H', hH, hs, hv, -⟩ := fog_value (setZero H) Jf Hf jop hop 0 0 (h3.trans h2.symm) (h5.trans h2.symm) (by rw [h6, h1, h2]) (h7.trans h4.symm)
    (by rw [h8, h3, h4]) (by rw [h4]; change 0 + N ≤ H.rows; omega) (by rw [h1, h4]; change 0 + nf * N ≤ H.cols; omega)
  refine ⟨H', hH, hs.1.trans h9, hs.2.1.trans h10, fun j a b => ?_⟩
  have := hv j (Λ.pos a) (Λ.pos b) (by rw [h1]; exact j.2) (by rw [h4]; exact Λ.lt a) (by rw [h4]; exact Λ.lt b)
  rw [setZero_val, h4, h2] at this
  rw [Nat.zero_add, Nat.zero_add, mul_comm (j : ℕ) N] at this
  rw [this, zero_add, Λ.sum, Λ.sum]
  congr 1
  · rw [Finset.sum_comm]
    refine Finset.sum_congr rfl fun l _ => ?_
    rw [Λ.sum, Finset.sum_mul]
    refine Finset.sum_congr rfl fun k _ => ?_
    ring
  · refine Finset.sum_congr rfl fun k _ => ?_
    rw [mul_comm (Λ.pos k) N]

end

end Verif.Flatten
