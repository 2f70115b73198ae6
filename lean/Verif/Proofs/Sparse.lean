import Verif.Spec.Sparse
import Mathlib.Data.List.Pairwise

/-! # Sparse block operations: lemmas -/

set_option linter.unusedSectionVars false

namespace Verif.Sparse

variable {F : Type*} [Field F]

theorem mem_entries (A : Sp F) (r c : ℕ) (v : F) :
    (r, c, v) ∈ A.entries ↔ r < A.rows ∧ c < A.cols ∧ A.ent r c = some v := by
  unfold Sp.entries
  split
  · simp only [List.mem_flatMap, List.mem_range, List.mem_filterMap, Option.map_eq_some_iff, Prod.mk.injEq]
    constructor
    · rintro ⟨r', hr, c', hc, v', hv, rfl, rfl, rfl⟩; exact ⟨hr, hc, hv⟩
    · rintro ⟨hr, hc, hv⟩; exact ⟨r, hr, c, hc, v, hv, rfl, rfl, rfl⟩
  · simp only [List.mem_flatMap, List.mem_range, List.mem_filterMap, Option.map_eq_some_iff, Prod.mk.injEq]
    constructor
    · rintro ⟨c', hc, r', hr, v', hv, rfl, rfl, rfl⟩; exact ⟨hr, hc, hv⟩
    · rintro ⟨hr, hc, hv⟩; exact ⟨c, hc, r, hr, v, hv, rfl, rfl, rfl⟩

/-- Two entries sit at different positions. -/
def Apart (e e' : ℕ × ℕ × F) : Prop := ¬(e.1 = e'.1 ∧ e.2.1 = e'.2.1)

theorem entries_apart (A : Sp F) : A.entries.Pairwise Apart := by
  unfold Sp.entries
  have key : ∀ n m : ℕ, ∀ g : ℕ → ℕ → Option (ℕ × ℕ × F),
      (∀ a b e, g a b = some e → e.1 = a ∧ e.2.1 = b ∨ e.1 = b ∧ e.2.1 = a ∧ True) →
      ((∀ a b e, g a b = some e → e.1 = a ∧ e.2.1 = b) ∨ (∀ a b e, g a b = some e → e.1 = b ∧ e.2.1 = a)) →
      ((List.range n).flatMap fun a => (List.range m).filterMap fun b => g a b).Pairwise Apart := by
    intro n m g _ hg
    rw [List.pairwise_flatMap]
    refine ⟨fun a _ => ?_, ?_⟩
    · rw [List.pairwise_filterMap]
      refine (List.pairwise_lt_range).imp ?_
      intro b b' hb e he e' he'
      rcases hg with hg | hg
      · have h1 := hg a b e he; have h2 := hg a b' e' he'
        rintro ⟨_, h⟩; rw [h1.2, h2.2] at h; omega
      · have h1 := hg a b e he; have h2 := hg a b' e' he'
        rintro ⟨h, _⟩; rw [h1.1, h2.1] at h; omega
    · refine (List.pairwise_lt_range).imp ?_
      intro a a' ha e he e' he'
      obtain ⟨b, _, hb⟩ := List.mem_filterMap.1 he
      obtain ⟨b', _, hb'⟩ := List.mem_filterMap.1 he'
      rcases hg with hg | hg
      · have h1 := hg a b e hb; have h2 := hg a' b' e' hb'
        rintro ⟨h, _⟩; rw [h1.1, h2.1] at h; omega
      · have h1 := hg a b e hb; have h2 := hg a' b' e' hb'
        rintro ⟨_, h⟩; rw [h1.2, h2.2] at h; omega
  split
  · refine key _ _ (fun r c => (A.ent r c).map fun v => (r, c, v)) ?_ (Or.inl ?_)
    all_goals
      intro a b e he
      obtain ⟨v, _, rfl⟩ := Option.map_eq_some_iff.1 he
      simp
  · refine key _ _ (fun c r => (A.ent r c).map fun v => (r, c, v)) ?_ (Or.inr ?_)
    all_goals
      intro a b e he
      obtain ⟨v, _, rfl⟩ := Option.map_eq_some_iff.1 he
      simp

theorem SameShape.trans {A B C : Sp F} (h : SameShape A B) (h' : SameShape B C) : SameShape A C :=
  ⟨h'.1.trans h.1, h'.2.1.trans h.2.1, h'.2.2.trans h.2.2⟩

theorem blockLoop_spec (op : F → F → F) (row0 col0 : ℕ) (scale : F) (up : Bool) (l : List (ℕ × ℕ × F))
    (hl : l.Pairwise Apart) (A : Sp F)
    (hfit : ∀ e ∈ l, (up = false ∨ row0 + e.1 ≤ col0 + e.2.1) → row0 + e.1 < A.rows ∧ col0 + e.2.1 < A.cols) :
    ∃ B, blockLoop op row0 col0 scale up l A = some B ∧ SameShape A B ∧
      (∀ e ∈ l, (up = false ∨ row0 + e.1 ≤ col0 + e.2.1) →
        B.ent (row0 + e.1) (col0 + e.2.1) = some (op (A.val (row0 + e.1) (col0 + e.2.1)) (scale * e.2.2))) ∧
      ∀ i j, (∀ e ∈ l, (up = false ∨ row0 + e.1 ≤ col0 + e.2.1) → ¬(row0 + e.1 = i ∧ col0 + e.2.1 = j)) →
        B.ent i j = A.ent i j := by
  induction l generalizing A with
  | nil => exact ⟨A, rfl, ⟨rfl, rfl, rfl⟩, by simp, by simp⟩
  | cons e l ih =>
    obtain ⟨r, c, v⟩ := e
    rw [List.pairwise_cons] at hl
    by_cases hok : up = false ∨ row0 + r ≤ col0 + c
    · have hin := hfit (r, c, v) (by simp) hok
      dsimp only at hin
      let A1 : Sp F := { A with ent := fun a b =>
        if a = row0 + r ∧ b = col0 + c then some (op (A.val (row0 + r) (col0 + c)) (scale * v)) else A.ent a b }
      have hstep : A.update (row0 + r) (col0 + c) (fun a => op a (scale * v)) = some A1 := by
        unfold Sp.update; rw [if_pos hin]
      obtain ⟨B, hB, hsh, h1, h2⟩ := ih hl.2 A1 (fun e he h => hfit e (List.mem_cons_of_mem _ he) h)
      refine ⟨B, ?_, hsh, ?_, ?_⟩
      · rw [blockLoop, if_pos hok, hstep]; exact hB
      · intro e he hoke
        rcases List.mem_cons.1 he with rfl | he
        · rw [h2]
          · simp [A1]
          · intro e he' _ hpos
            exact hl.1 e he' ⟨by omega, by omega⟩
        · rw [h1 e he hoke]
          have hap : ¬(row0 + e.1 = row0 + r ∧ col0 + e.2.1 = col0 + c) := fun h => hl.1 e he ⟨by dsimp only; omega, by dsimp only; omega⟩
          have : A1.val (row0 + e.1) (col0 + e.2.1) = A.val (row0 + e.1) (col0 + e.2.1) := by
            unfold Sp.val; simp only [A1]; rw [if_neg hap]
          rw [this]
      · intro i j hij
        rw [h2 i j (fun e he => hij e (List.mem_cons_of_mem _ he))]
        have := hij (r, c, v) (by simp) hok
        simp only [A1]
        rw [if_neg (fun h => this ⟨h.1.symm, h.2.symm⟩)]
    · obtain ⟨B, hB, hsh, h1, h2⟩ := ih hl.2 A (fun e he h => hfit e (List.mem_cons_of_mem _ he) h)
      refine ⟨B, ?_, hsh, ?_, ?_⟩
      · rw [blockLoop, if_neg hok]; exact hB
      · intro e he hoke
        rcases List.mem_cons.1 he with rfl | he
        · exact absurd hoke hok
        · exact h1 e he hoke
      · exact fun i j hij => h2 i j (fun e he => hij e (List.mem_cons_of_mem _ he))

theorem blockOp_spec (op : F → F → F) (A : Sp F) (row0 col0 : ℕ) (S : Sp F) (scale : F) (up : Bool)
    (hr : row0 + S.rows ≤ A.rows) (hc : col0 + S.cols ≤ A.cols) :
    ∃ B, blockLoop op row0 col0 scale up S.entries A = some B ∧ SameShape A B ∧
      ∀ i j, B.ent i j =
        if InBlock row0 col0 S.rows S.cols i j ∧ (up = true → i ≤ j) then
          match S.ent (i - row0) (j - col0) with
          | some v => some (op (A.val i j) (scale * v))
          | none => A.ent i j
        else A.ent i j := by
  obtain ⟨B, hB, hsh, h1, h2⟩ := blockLoop_spec op row0 col0 scale up S.entries (entries_apart S) A (by
    rintro ⟨r, c, v⟩ he _
    have := (mem_entries S r c v).1 he
    dsimp only; omega)
  refine ⟨B, hB, hsh, fun i j => ?_⟩
  have hskip : (∀ e ∈ S.entries, (up = false ∨ row0 + e.1 ≤ col0 + e.2.1) →
      ¬(row0 + e.1 = i ∧ col0 + e.2.1 = j)) → B.ent i j = A.ent i j := h2 i j
  split
  next h =>
    obtain ⟨⟨⟨hi1, hi2⟩, hj1, hj2⟩, hup⟩ := h
    split
    next v hv =>
      have hm : (i - row0, j - col0, v) ∈ S.entries := (mem_entries _ _ _ _).2 ⟨by omega, by omega, hv⟩
      have := h1 _ hm (by
        dsimp only
        rcases up with _ | _
        · exact Or.inl rfl
        · exact Or.inr (by have := hup rfl; omega))
      dsimp only at this
      rw [show row0 + (i - row0) = i by omega, show col0 + (j - col0) = j by omega] at this
      exact this
    next hv =>
      refine hskip ?_
      rintro ⟨r, c, v⟩ he _ ⟨hpi, hpj⟩
      have := (mem_entries S r c v).1 he
      dsimp only at hpi hpj
      rw [show i - row0 = r by omega, show j - col0 = c by omega, this.2.2] at hv
      exact absurd hv (by simp)
  next h =>
    refine hskip ?_
    rintro ⟨r, c, v⟩ he hok ⟨hpi, hpj⟩
    have := (mem_entries S r c v).1 he
    dsimp only at hpi hpj hok
    refine h ⟨⟨⟨by omega, by omega⟩, by omega, by omega⟩, ?_⟩
    intro hup
    rcases hok with hok | hok
    · rw [hup] at hok; exact absurd hok (by simp)
    · omega

theorem blockAdd_spec (A : Sp F) (row0 col0 : ℕ) (S : Sp F) (scale : F) (up : Bool)
    (hr : row0 + S.rows ≤ A.rows) (hc : col0 + S.cols ≤ A.cols) :
    ∃ B, blockAdd A row0 col0 S scale up = some B ∧ SameShape A B ∧
      ∀ i j, B.val i j = A.val i j +
        if InBlock row0 col0 S.rows S.cols i j ∧ (up = true → i ≤ j) then scale * S.val (i - row0) (j - col0) else 0 := by
  obtain ⟨B, hB, hsh, h⟩ := blockOp_spec (fun a b => a + b) A row0 col0 S scale up hr hc
  refine ⟨B, hB, hsh, fun i j => ?_⟩
  unfold Sp.val
  rw [h i j]
  split
  · cases S.ent (i - row0) (j - col0) with
    | none => simp
    | some v => simp [Sp.val]
  · simp

theorem identityLoop_spec (op : F → F → F) (row0 col0 : ℕ) (scale : F) (l : List ℕ) (hl : l.Pairwise (· ≠ ·)) (A : Sp F)
    (hfit : ∀ k ∈ l, row0 + k < A.rows ∧ col0 + k < A.cols) :
    ∃ B, identityLoop op row0 col0 scale l A = some B ∧ SameShape A B ∧
      (∀ k ∈ l, B.ent (row0 + k) (col0 + k) = some (op (A.val (row0 + k) (col0 + k)) scale)) ∧
      ∀ i j, (∀ k ∈ l, ¬(row0 + k = i ∧ col0 + k = j)) → B.ent i j = A.ent i j := by
  induction l generalizing A with
  | nil => exact ⟨A, rfl, ⟨rfl, rfl, rfl⟩, by simp, by simp⟩
  | cons k l ih =>
    rw [List.pairwise_cons] at hl
    have hin := hfit k (by simp)
    let A1 : Sp F := { A with ent := fun a b =>
      if a = row0 + k ∧ b = col0 + k then some (op (A.val (row0 + k) (col0 + k)) scale) else A.ent a b }
    have hstep : A.update (row0 + k) (col0 + k) (fun a => op a scale) = some A1 := by
      unfold Sp.update; rw [if_pos hin]
    obtain ⟨B, hB, hsh, h1, h2⟩ := ih hl.2 A1 (fun e he => hfit e (List.mem_cons_of_mem _ he))
    refine ⟨B, ?_, hsh, ?_, ?_⟩
    · rw [identityLoop, hstep]; exact hB
    · intro e he
      rcases List.mem_cons.1 he with rfl | he
      · rw [h2]
        · simp [A1]
        · intro e' he' hpos
          exact hl.1 e' he' (by omega)
      · rw [h1 e he]
        have hap : ¬(row0 + e = row0 + k ∧ col0 + e = col0 + k) := fun h => hl.1 e he (by omega)
        have : A1.val (row0 + e) (col0 + e) = A.val (row0 + e) (col0 + e) := by
          unfold Sp.val; simp only [A1]; rw [if_neg hap]
        rw [this]
    · intro i j hij
      rw [h2 i j (fun e he => hij e (List.mem_cons_of_mem _ he))]
      have := hij k (by simp)
      simp only [A1]
      rw [if_neg (fun h => this ⟨h.1.symm, h.2.symm⟩)]

theorem identityOp_spec (op : F → F → F) (A : Sp F) (row0 col0 n : ℕ) (scale : F)
    (hr : row0 + n ≤ A.rows) (hc : col0 + n ≤ A.cols) :
    ∃ B, identityLoop op row0 col0 scale (List.range n) A = some B ∧ SameShape A B ∧
      ∀ i j, B.ent i j = if OnDiagonal row0 col0 n i j then some (op (A.val i j) scale) else A.ent i j := by
  obtain ⟨B, hB, hsh, h1, h2⟩ := identityLoop_spec op row0 col0 scale (List.range n)
    (List.pairwise_lt_range.imp fun h => ne_of_lt h) A (by
      intro k hk; rw [List.mem_range] at hk; omega)
  refine ⟨B, hB, hsh, fun i j => ?_⟩
  split
  next h =>
    obtain ⟨k, hk, rfl, rfl⟩ := h
    exact h1 k (List.mem_range.2 hk)
  next h =>
    refine h2 i j fun k hk hij => h ⟨k, List.mem_range.1 hk, hij.1.symm, hij.2.symm⟩

theorem setZero_val (A : Sp F) (i j : ℕ) : (setZero A).val i j = 0 := by
  simp only [setZero, Sp.val]
  cases A.ent i j <;> rfl

@[simp] theorem block_val (A : Sp F) (r0 c0 r c i j : ℕ) :
    (A.block r0 c0 r c).val i j = if i < r ∧ j < c then A.val (r0 + i) (c0 + j) else 0 := by
  simp only [Sp.block, Sp.val]
  split <;> rfl

@[simp] theorem dense_val (r c : ℕ) (f : ℕ → ℕ → F) (i j : ℕ) :
    (dense r c f).val i j = if i < r ∧ j < c then f i j else 0 := by
  simp only [dense, Sp.val]
  split <;> rfl

@[simp] theorem empty_val (r c : ℕ) (b : Bool) (i j : ℕ) : (Sp.empty r c b : Sp F).val i j = 0 := rfl

/-- What one `block_add` call adds at `(i, j)`. -/
def Blk.contrib (b : Blk F) (i j : ℕ) : F :=
  if InBlock b.row0 b.col0 b.src.rows b.src.cols i j ∧ (b.upperOnly = true → i ≤ j) then
    b.scale * b.src.val (i - b.row0) (j - b.col0) else 0

/-- The block lies inside an `r` by `c` matrix. -/
def Blk.Fits (b : Blk F) (r c : ℕ) : Prop := b.row0 + b.src.rows ≤ r ∧ b.col0 + b.src.cols ≤ c

theorem blockAdds_spec (l : List (Blk F)) (A : Sp F) (h : ∀ b ∈ l, b.Fits A.rows A.cols) :
    ∃ B, blockAdds l A = some B ∧ SameShape A B ∧ ∀ i j, B.val i j = A.val i j + (l.map fun b => b.contrib i j).sum := by
  induction l generalizing A with
  | nil => exact ⟨A, rfl, ⟨rfl, rfl, rfl⟩, by simp⟩
  | cons b l ih =>
    have hb := h b (by simp)
    obtain ⟨A1, hA1, hs1, hv1⟩ := blockAdd_spec A b.row0 b.col0 b.src b.scale b.upperOnly hb.1 hb.2
    obtain ⟨B, hB, hs2, hv2⟩ := ih A1 (fun b' hb' => by
      rw [hs1.1, hs1.2.1]; exact h b' (List.mem_cons_of_mem _ hb'))
    refine ⟨B, ?_, hs1.trans hs2, fun i j => ?_⟩
    · rw [blockAdds, hA1]; exact hB
    · rw [hv2, hv1, List.map_cons, List.sum_cons, add_assoc]; rfl

theorem blockAdds_append (l l' : List (Blk F)) (A : Sp F) :
    blockAdds (l ++ l') A = (blockAdds l A).bind (blockAdds l') := by
  induction l generalizing A with
  | nil => rfl
  | cons b l ih =>
    simp only [List.cons_append, blockAdds]
    cases blockAdd A b.row0 b.col0 b.src b.scale b.upperOnly with
    | none => rfl
    | some B => exact ih B

theorem sum_entries {M : Type*} [AddCommMonoid M] (A : Sp F) (φ : ℕ → ℕ → F → M) (h0 : ∀ r c, φ r c 0 = 0) :
    (A.entries.map fun e => φ e.1 e.2.1 e.2.2).sum =
      ∑ r ∈ Finset.range A.rows, ∑ c ∈ Finset.range A.cols, φ r c (A.val r c) := by
  have hcase : ∀ n m : ℕ, ∀ g : ℕ → ℕ → Option F, ∀ ψ : ℕ → ℕ → F → M, (∀ a b, ψ a b 0 = 0) →
      (((List.range n).flatMap fun a => ((List.range m).filterMap fun b => (g a b).map fun v => (a, b, v))).map
        fun e => ψ e.1 e.2.1 e.2.2).sum =
      ∑ a ∈ Finset.range n, ∑ b ∈ Finset.range m, ψ a b ((g a b).getD 0) := by
    intro n m g ψ hψ
    have inner : ∀ a, (((List.range m).filterMap fun b => (g a b).map fun v => (a, b, v)).map
        fun e => ψ e.1 e.2.1 e.2.2).sum = ∑ b ∈ Finset.range m, ψ a b ((g a b).getD 0) := by
      intro a
      induction m with
      | zero => rfl
      | succ m ih =>
        rw [List.range_succ, List.filterMap_append, List.map_append, List.sum_append, ih, Finset.sum_range_succ]
        congr 1
        cases h : g a m <;> simp [h, hψ]
    induction n with
    | zero => rfl
    | succ n ih =>
      rw [List.range_succ, List.flatMap_append, List.map_append, List.sum_append, ih, Finset.sum_range_succ]
      congr 1
      simpa using inner n
  unfold Sp.entries
  split
  · exact hcase _ _ A.ent φ h0
  · have := hcase A.cols A.rows (fun c r => A.ent r c) (fun c r v => φ r c v) (fun a b => h0 b a)
    rw [Finset.sum_comm]
    refine Eq.trans ?_ this
    congr 1
    have hswap : ∀ l : List ℕ, ∀ m : List ℕ,
        ((l.flatMap fun c => m.filterMap fun r => (A.ent r c).map fun v => (r, c, v)).map fun e => φ e.1 e.2.1 e.2.2) =
        ((l.flatMap fun c => m.filterMap fun r => (A.ent r c).map fun v => (c, r, v)).map fun e => φ e.2.1 e.1 e.2.2) := by
      intro l m
      rw [List.map_flatMap, List.map_flatMap]
      congr 1
      funext c
      rw [List.map_filterMap, List.map_filterMap]
      congr 1
      funext r
      cases A.ent r c <;> rfl
    exact hswap _ _

end Verif.Sparse
