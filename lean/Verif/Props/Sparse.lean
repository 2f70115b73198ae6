import Verif.Proofs.Sparse
import Verif.Proofs.Partial
import Mathlib.Tactic.FieldSimp
import Mathlib.Tactic.NormNum

/-! # Sparse utilities (C37, C38) -/

set_option linter.unusedSectionVars false

namespace Verif.Sparse

variable {F : Type*} [Field F]

/-- **C38, `block_add`.** If the block fits, `block_add` adds `scale * source` to exactly the positions of the block (only
those on or above the diagonal of the destination with `upper_only`) and nothing else; the shape is kept and a position
outside the block keeps its stored state. -/
theorem block_add_exact (A : Sp F) (row0 col0 : ℕ) (S : Sp F) (scale : F) (up : Bool)
    (hr : row0 + S.rows ≤ A.rows) (hc : col0 + S.cols ≤ A.cols) :
    ∃ B, blockAdd A row0 col0 S scale up = some B ∧ SameShape A B ∧
      (∀ r c, r < S.rows → c < S.cols → (up = true → row0 + r ≤ col0 + c) →
        B.val (row0 + r) (col0 + c) = A.val (row0 + r) (col0 + c) + scale * S.val r c) ∧
      (∀ i j, ¬(InBlock row0 col0 S.rows S.cols i j ∧ (up = true → i ≤ j)) → B.ent i j = A.ent i j) ∧
      ∀ i j, A.ent i j ≠ none → B.ent i j ≠ none := by
  obtain ⟨B, hB, hsh, h⟩ := blockOp_spec (fun a b => a + b) A row0 col0 S scale up hr hc
  refine ⟨B, hB, hsh, fun r c hr' hc' hup => ?_, fun i j hij => ?_, fun i j hij => ?_⟩
  · have hin : InBlock row0 col0 S.rows S.cols (row0 + r) (col0 + c) ∧ (up = true → row0 + r ≤ col0 + c) :=
      ⟨⟨⟨by omega, by omega⟩, by omega, by omega⟩, hup⟩
    have := h (row0 + r) (col0 + c)
    rw [if_pos hin, Nat.add_sub_cancel_left, Nat.add_sub_cancel_left] at this
    unfold Sp.val
    rw [this]
    cases S.ent r c with
    | none => simp
    | some v => simp [Sp.val]
  · rw [h, if_neg hij]
  · rw [h]
    split
    · cases S.ent (i - row0) (j - col0) with
      | none => exact hij
      | some v => simp
    · exact hij

/-- If some stored entry that is to be added falls outside the destination, the access is out of range. -/
theorem block_add_out_of_range (A : Sp F) (row0 col0 : ℕ) (S : Sp F) (scale : F) (r c : ℕ) (hr : r < S.rows) (hc : c < S.cols)
    (hS : S.ent r c ≠ none) (hout : A.rows ≤ row0 + r ∨ A.cols ≤ col0 + c) : blockAdd A row0 col0 S scale false = none := by
  obtain ⟨v, hv⟩ := Option.ne_none_iff_exists'.1 hS
  have hm : (r, c, v) ∈ S.entries := (mem_entries S r c v).2 ⟨hr, hc, hv⟩
  have key : ∀ l : List (ℕ × ℕ × F), ∀ A : Sp F, (r, c, v) ∈ l → (A.rows ≤ row0 + r ∨ A.cols ≤ col0 + c) →
      blockLoop (fun a b => a + b) row0 col0 scale false l A = none := by
    intro l
    induction l with
    | nil => intro A h; exact absurd h (by simp)
    | cons e l ih =>
      obtain ⟨r', c', v'⟩ := e
      intro A hmem hA
      rw [blockLoop, if_pos (Or.inl rfl)]
      by_cases hin : row0 + r' < A.rows ∧ col0 + c' < A.cols
      · rcases List.mem_cons.1 hmem with heq | hmem
        · simp only [Prod.mk.injEq] at heq; omega
        · unfold Sp.update
          rw [if_pos hin]
          exact ih _ hmem hA
      · unfold Sp.update
        rw [if_neg hin]
  exact key _ A hm hout

/-- **C38, `block_write`, partial.** The documentation promises `dest = scale * source` on the whole block. Proved: the
stored entries of the source are written, and nothing else changes. Missing: positions where the source stores nothing keep
the old value, see `block_write_skips_structural_zeros`. -/
theorem block_write_partial (A : Sp F) (row0 col0 : ℕ) (S : Sp F) (scale : F) (up : Bool)
    (hr : row0 + S.rows ≤ A.rows) (hc : col0 + S.cols ≤ A.cols) :
    ∃ B, blockWrite A row0 col0 S scale up = some B ∧ SameShape A B ∧
      (∀ r c, r < S.rows → c < S.cols → (up = true → row0 + r ≤ col0 + c) →
        B.val (row0 + r) (col0 + c) = if S.ent r c = none then A.val (row0 + r) (col0 + c) else scale * S.val r c) ∧
      ∀ i j, ¬(InBlock row0 col0 S.rows S.cols i j ∧ (up = true → i ≤ j)) → B.ent i j = A.ent i j := by
  obtain ⟨B, hB, hsh, h⟩ := blockOp_spec (fun _ b => b) A row0 col0 S scale up hr hc
  refine ⟨B, hB, hsh, fun r c hr' hc' hup => ?_, fun i j hij => ?_⟩
  · have hin : InBlock row0 col0 S.rows S.cols (row0 + r) (col0 + c) ∧ (up = true → row0 + r ≤ col0 + c) :=
      ⟨⟨⟨by omega, by omega⟩, by omega, by omega⟩, hup⟩
    have := h (row0 + r) (col0 + c)
    rw [if_pos hin, Nat.add_sub_cancel_left, Nat.add_sub_cancel_left] at this
    unfold Sp.val
    rw [this]
    cases S.ent r c with
    | none => simp
    | some v => simp
  · rw [h, if_neg hij]

/-- **C38, `block_write`, sources that store every entry (such as dense ones).** The documented behaviour. -/
theorem block_write_full (A : Sp F) (row0 col0 : ℕ) (S : Sp F) (hS : Full S) (scale : F) (up : Bool)
    (hr : row0 + S.rows ≤ A.rows) (hc : col0 + S.cols ≤ A.cols) :
    ∃ B, blockWrite A row0 col0 S scale up = some B ∧ SameShape A B ∧
      (∀ r c, r < S.rows → c < S.cols → (up = true → row0 + r ≤ col0 + c) →
        B.val (row0 + r) (col0 + c) = scale * S.val r c) ∧
      ∀ i j, ¬(InBlock row0 col0 S.rows S.cols i j ∧ (up = true → i ≤ j)) → B.ent i j = A.ent i j := by
  obtain ⟨B, hB, hsh, h1, h2⟩ := block_write_partial A row0 col0 S scale up hr hc
  exact ⟨B, hB, hsh, fun r c hr' hc' hup => by rw [h1 r c hr' hc' hup, if_neg (hS r c hr' hc')], h2⟩

/-- **C38 is false of `block_write`**: writing a sparse zero matrix leaves the old value 1 where the documentation
promises 0. -/
theorem block_write_skips_structural_zeros :
    ∃ (A S : Sp ℚ) (B : Sp ℚ), S.rows = A.rows ∧ S.cols = A.cols ∧ blockWrite A 0 0 S = some B ∧
      S.val 0 0 = 0 ∧ B.val 0 0 = 1 ∧ 0 < A.rows ∧ 0 < A.cols :=
  ⟨dense 1 1 fun _ _ => 1, Sp.empty 1 1, dense 1 1 fun _ _ => 1, rfl, rfl, rfl, rfl, rfl, Nat.one_pos, Nat.one_pos⟩

/-- **C38, `block_add_identity`.** -/
theorem block_add_identity_exact (A : Sp F) (row0 col0 n : ℕ) (scale : F) (hr : row0 + n ≤ A.rows) (hc : col0 + n ≤ A.cols) :
    ∃ B, blockAddIdentity A row0 col0 n scale = some B ∧ SameShape A B ∧
      (∀ k < n, B.val (row0 + k) (col0 + k) = A.val (row0 + k) (col0 + k) + scale) ∧
      ∀ i j, ¬OnDiagonal row0 col0 n i j → B.ent i j = A.ent i j := by
  obtain ⟨B, hB, hsh, h⟩ := identityOp_spec (fun a b => a + b) A row0 col0 n scale hr hc
  refine ⟨B, hB, hsh, fun k hk => ?_, fun i j hij => ?_⟩
  · rw [Sp.val, h, if_pos ⟨k, hk, rfl, rfl⟩]; rfl
  · rw [h, if_neg hij]

/-- **C38, `block_write_identity`.** The code assigns (as the name says; the comment at sparse.hpp:114 says `+=`). -/
theorem block_write_identity_exact (A : Sp F) (row0 col0 n : ℕ) (scale : F) (hr : row0 + n ≤ A.rows)
    (hc : col0 + n ≤ A.cols) :
    ∃ B, blockWriteIdentity A row0 col0 n scale = some B ∧ SameShape A B ∧
      (∀ k < n, B.val (row0 + k) (col0 + k) = scale) ∧
      ∀ i j, ¬OnDiagonal row0 col0 n i j → B.ent i j = A.ent i j := by
  obtain ⟨B, hB, hsh, h⟩ := identityOp_spec (fun _ b => b) A row0 col0 n scale hr hc
  refine ⟨B, hB, hsh, fun k hk => ?_, fun i j hij => ?_⟩
  · rw [Sp.val, h, if_pos ⟨k, hk, rfl, rfl⟩]; rfl
  · rw [h, if_neg hij]

/-- **C38, `set_zero`.** Every value becomes zero, and the stored positions stay. -/
theorem set_zero_exact (A : Sp F) :
    SameShape A (setZero A) ∧ (∀ i j, (setZero A).val i j = 0) ∧ ∀ i j, (setZero A).ent i j = none ↔ A.ent i j = none := by
  refine ⟨⟨rfl, rfl, rfl⟩, setZero_val A, fun i j => ?_⟩
  simp [setZero]

/-- `count_explicit_zeros` counts the positions that store a zero. -/
theorem count_explicit_zeros_exact [DecidableEq F] (A : Sp F) :
    countExplicitZeros A =
      ((Finset.range A.rows ×ˢ Finset.range A.cols).filter fun p => A.ent p.1 p.2 = some 0).card := by
  have h1 : ∀ l : List (ℕ × ℕ × F), ∀ n, l.foldl (fun n e => if e.2.2 = 0 then n + 1 else n) n =
      n + (l.map fun e => if e.2.2 = 0 then 1 else 0).sum := by
    intro l
    induction l with
    | nil => simp
    | cons e l ih => intro n; rw [List.foldl_cons, ih, List.map_cons, List.sum_cons]; split <;> omega
  unfold countExplicitZeros
  rw [h1, zero_add, Finset.card_filter, Finset.sum_product]
  have h2 : ∀ n m : ℕ, ∀ g : ℕ → ℕ → Option F, ∀ f : ℕ → ℕ → F → ℕ × ℕ × F, (∀ a b v, (f a b v).2.2 = v) →
      (((List.range n).flatMap fun a => (List.range m).filterMap fun b => (g a b).map (f a b)).map
        fun e => if e.2.2 = 0 then 1 else 0).sum =
      ∑ a ∈ Finset.range n, ∑ b ∈ Finset.range m, if g a b = some 0 then 1 else 0 := by
    intro n m g f hf
    have inner : ∀ a, (((List.range m).filterMap fun b => (g a b).map (f a b)).map
        fun e => if e.2.2 = 0 then 1 else 0).sum = ∑ b ∈ Finset.range m, if g a b = some 0 then 1 else 0 := by
      intro a
      induction m with
      | zero => rfl
      | succ m ih =>
        rw [List.range_succ, List.filterMap_append, List.map_append, List.sum_append, ih, Finset.sum_range_succ]
        congr 1
        cases h : g a m <;> simp [h, hf]
    induction n with
    | zero => rfl
    | succ n ih =>
      rw [List.range_succ, List.flatMap_append, List.map_append, List.sum_append, ih, Finset.sum_range_succ]
      congr 1
      simpa using inner n
  unfold Sp.entries
  split
  · exact h2 _ _ A.ent (fun r c v => (r, c, v)) fun _ _ _ => rfl
  · rw [Finset.sum_comm]
    exact h2 A.cols A.rows (fun c r => A.ent r c) (fun c r v => (r, c, v)) fun _ _ _ => rfl

/-- `mark_explicit_zeros` returns 0 where nothing is stored, 9 at stored zeros and 1 at stored nonzero values. -/
theorem mark_explicit_zeros_exact [DecidableEq F] (A : Sp F) (i j : ℕ) (hi : i < A.rows) (hj : j < A.cols) :
    markExplicitZeros A i j = match A.ent i j with
      | none => 0
      | some v => if v = 0 then 9 else 1 := by
  have key : ∀ l : List (ℕ × ℕ × F), l.Pairwise Apart → ∀ R : ℕ → ℕ → F,
      (∀ e ∈ l, l.foldl (fun R e => fun i j => if i = e.1 ∧ j = e.2.1 then (if e.2.2 = 0 then 9 else 1) else R i j) R e.1 e.2.1
        = if e.2.2 = 0 then 9 else 1) ∧
      ∀ i j, (∀ e ∈ l, ¬(i = e.1 ∧ j = e.2.1)) →
        l.foldl (fun R e => fun i j => if i = e.1 ∧ j = e.2.1 then (if e.2.2 = 0 then 9 else 1) else R i j) R i j = R i j := by
    intro l
    induction l with
    | nil => intro _ R; exact ⟨by simp, by simp⟩
    | cons e l ih =>
      intro hl R
      rw [List.pairwise_cons] at hl
      obtain ⟨h1, h2⟩ := ih hl.2 (fun i j => if i = e.1 ∧ j = e.2.1 then (if e.2.2 = 0 then 9 else 1) else R i j)
      refine ⟨fun e' he' => ?_, fun i j hij => ?_⟩
      · rw [List.foldl_cons]
        rcases List.mem_cons.1 he' with rfl | he'
        · rw [h2 _ _ fun e'' he'' => hl.1 e'' he'']; simp
        · exact h1 e' he'
      · rw [List.foldl_cons, h2 i j fun e' he' => hij e' (List.mem_cons_of_mem _ he'), if_neg (hij e (by simp))]
  obtain ⟨h1, h2⟩ := key A.entries (entries_apart A) fun _ _ => 0
  unfold markExplicitZeros
  split
  next h =>
    refine h2 i j ?_
    rintro ⟨r, c, v⟩ he ⟨h3, h4⟩
    have := (mem_entries A r c v).1 he
    dsimp only at h3 h4
    rw [h3, h4, this.2.2] at h; exact absurd h (by simp)
  next v h => exact h1 (i, j, v) ((mem_entries A i j v).2 ⟨hi, hj, h⟩)

/-- A case with an upper-triangular restriction and an offset: of the 2 by 2 source only three entries are added. -/
example : ∃ B, blockAdd (dense 3 3 fun i j => (i + j : ℚ)) 1 1 (dense 2 2 fun _ _ => (1 : ℚ)) 10 true = some B ∧
    B.val 1 1 = 12 ∧ B.val 1 2 = 13 ∧ B.val 2 1 = 3 ∧ B.val 2 2 = 14 ∧ B.val 0 2 = 2 := by
  refine ⟨_, rfl, ?_, ?_, ?_, ?_, ?_⟩ <;> norm_num [Sp.val, dense]

/-! ### d2r_fog -/

theorem block_index {N n n' b : ℕ} (hb : b < N) (h1 : n' * N ≤ n * N + b) (h2 : n * N + b < n' * N + N) : n' = n := by
  have h3 : n' < n + 1 := Nat.lt_of_mul_lt_mul_right (a := N) (by rw [Nat.add_mul]; omega)
  have h4 : n < n' + 1 := Nat.lt_of_mul_lt_mul_right (a := N) (by rw [Nat.add_mul]; omega)
  omega

theorem fog_value (out Jf Hf Jg Hg : Sp F) (r0 c0 : ℕ) (h1 : Jg.rows = Jf.cols) (h2 : Hf.rows = Jf.cols)
    (h3 : Hf.cols = Jf.rows * Jf.cols) (h4 : Hg.rows = Jg.cols) (h5 : Hg.cols = Jg.rows * Jg.cols)
    (hr : r0 + Jg.cols ≤ out.rows) (hc : c0 + Jf.rows * Jg.cols ≤ out.cols) :
    ∃ B, d2rFog out Jf Hf Jg Hg r0 c0 = some B ∧ SameShape out B ∧
      (∀ no a b, no < Jf.rows → a < Jg.cols → b < Jg.cols →
        B.val (r0 + a) (c0 + no * Jg.cols + b) = out.val (r0 + a) (c0 + no * Jg.cols + b) +
          ((∑ l ∈ Finset.range Jf.cols, (∑ k ∈ Finset.range Jf.cols,
            Jg.val k a * Hf.val k (no * Jf.cols + l)) * Jg.val l b) +
          ∑ k ∈ Finset.range Jf.cols, Jf.val no k * Hg.val a (k * Jg.cols + b))) ∧
      ∀ i j, ¬InBlock r0 c0 Jg.cols (Jf.rows * Jg.cols) i j → B.val i j = out.val i j := by
  have hmul : ∀ no, no < Jf.rows → no * Jg.cols + Jg.cols ≤ Jf.rows * Jg.cols := fun no hno => by
    have := Nat.mul_le_mul_right Jg.cols (show no + 1 ≤ Jf.rows from hno)
    rwa [Nat.add_mul, one_mul] at this
  have hfit1 : ∀ b ∈ fogFirst Hf Jg Jf.rows Jf.cols Jg.cols r0 c0, b.Fits out.rows out.cols := by
    intro b hb
    obtain ⟨no, hno, rfl⟩ := List.mem_map.1 hb
    have := hmul no (List.mem_range.1 hno)
    exact ⟨hr, by change c0 + no * Jg.cols + Jg.cols ≤ _; omega⟩
  obtain ⟨A, hA, hsA, hvA⟩ := blockAdds_spec _ out hfit1
  have hfit2 : ∀ b ∈ fogSecond Jf Hg Jg.cols r0 c0, b.Fits A.rows A.cols := by
    intro b hb
    obtain ⟨⟨r, c, v⟩, he, rfl⟩ := List.mem_map.1 hb
    have := hmul r ((mem_entries Jf r c v).1 he).1
    rw [hsA.1, hsA.2.1]
    refine ⟨?_, ?_⟩
    · change r0 + Hg.rows ≤ _; rw [h4]; exact hr
    · change c0 + r * Jg.cols + Jg.cols ≤ _; omega
  obtain ⟨B, hB, hsB, hvB⟩ := blockAdds_spec _ A hfit2
  refine ⟨B, ?_, hsA.trans hsB, ?_, ?_⟩
  · unfold d2rFog
    dsimp only
    rw [if_pos ⟨h1.symm, h2, h3, h4, h5⟩, hA]; exact hB
  · intro no a b hno ha hb
    rw [hvB, hvA, add_assoc]
    congr 1
    congr 1
    · unfold fogFirst
      rw [List.map_map, ← List.sum_toFinset _ (List.nodup_range)]
      rw [Finset.sum_eq_single no]
      · simp only [Function.comp, Blk.contrib]
        rw [if_pos ⟨⟨⟨by omega, by change _ < r0 + Jg.cols; omega⟩, by omega, by change _ < c0 + no * Jg.cols + Jg.cols; omega⟩, by simp⟩]
        rw [Nat.add_sub_cancel_left, Nat.add_sub_cancel_left, one_mul, sandwich, dense_val, if_pos ⟨ha, hb⟩]
      · intro no' _ hne
        simp only [Function.comp, Blk.contrib]
        rw [if_neg]
        rintro ⟨⟨_, h6, h7⟩, _⟩
        change _ < c0 + no' * Jg.cols + Jg.cols at h7
        exact hne (block_index hb (by omega) (by omega))
      · intro h; exact absurd (List.mem_toFinset.2 (List.mem_range.2 hno)) h
    · unfold fogSecond
      rw [List.map_map]
      have := sum_entries Jf (fun r c v => (⟨r0, c0 + r * Jg.cols, Hg.middleCols (c * Jg.cols) Jg.cols, v, false⟩ : Blk F).contrib
        (r0 + a) (c0 + no * Jg.cols + b)) (by intro r c; simp [Blk.contrib])
      refine Eq.trans this ?_
      rw [Finset.sum_eq_single no]
      · refine Finset.sum_congr rfl fun k _ => ?_
        rw [Blk.contrib, if_pos ⟨⟨⟨Nat.le_add_right _ _, by change _ < r0 + Hg.rows; omega⟩, Nat.le_add_right _ _,
          by change _ < c0 + no * Jg.cols + Jg.cols; omega⟩, by simp⟩]
        change Jf.val no k * (Hg.block 0 (k * Jg.cols) Hg.rows Jg.cols).val _ _ = _
        dsimp only
        rw [Nat.add_sub_cancel_left, Nat.add_sub_cancel_left, block_val, if_pos ⟨by omega, hb⟩, Nat.zero_add]
      · intro no' _ hne
        refine Finset.sum_eq_zero fun k _ => ?_
        simp only [Blk.contrib]
        rw [if_neg]
        rintro ⟨⟨_, h6, h7⟩, _⟩
        change _ < c0 + no' * Jg.cols + Jg.cols at h7
        exact hne (block_index hb (by omega) (by omega))
      · intro h; exact absurd (Finset.mem_range.2 hno) h
  · intro i j hij
    rw [hvB, hvA]
    have z1 : ((fogFirst Hf Jg Jf.rows Jf.cols Jg.cols r0 c0).map fun b => b.contrib i j).sum = 0 := by
      refine List.sum_eq_zero fun x hx => ?_
      obtain ⟨b, hb, rfl⟩ := List.mem_map.1 hx
      obtain ⟨no, hno, rfl⟩ := List.mem_map.1 hb
      simp only [Blk.contrib]
      rw [if_neg]
      rintro ⟨⟨h6, h7, h8⟩, _⟩
      change _ ∧ _ < r0 + Jg.cols at h6
      change _ < c0 + no * Jg.cols + Jg.cols at h8
      have := hmul no (List.mem_range.1 hno)
      exact hij ⟨h6, by omega, by omega⟩
    have z2 : ((fogSecond Jf Hg Jg.cols r0 c0).map fun b => b.contrib i j).sum = 0 := by
      refine List.sum_eq_zero fun x hx => ?_
      obtain ⟨b, hb, rfl⟩ := List.mem_map.1 hx
      obtain ⟨⟨r, c, v⟩, he, rfl⟩ := List.mem_map.1 hb
      simp only [Blk.contrib]
      rw [if_neg]
      rintro ⟨⟨h6, h7, h8⟩, _⟩
      change _ ∧ _ < r0 + Hg.rows at h6
      change _ < c0 + r * Jg.cols + Jg.cols at h8
      have := hmul r ((mem_entries Jf r c v).1 he).1
      exact hij ⟨by omega, by omega, by omega⟩
    rw [z1, z2, add_zero, add_zero]

/-- **C37.** Let `Jf`, `Hf` hold the first and second partial derivatives of `f` at `g x`, and `Jg`, `Hg` those of `g` at
`x` (row `k`, column `no * Ny + l` of `Hf` is the derivative of the `no`-th component with respect to `k` and then `l`).
Then `d2r_fog` adds to block `no` of the output, at the requested offset, exactly the second partial derivatives of the
`no`-th component of `f ∘ g`, and changes nothing else. -/
theorem d2r_fog_exact {No Ny Nx : ℕ} (f : (Fin Ny → ℝ) → Fin No → ℝ) (g : (Fin Nx → ℝ) → Fin Ny → ℝ)
    (hf : ∀ o, ContDiff ℝ 2 fun y => f y o) (hg : ∀ k, ContDiff ℝ 2 fun x => g x k) (x : Fin Nx → ℝ)
    (out Jf Hf Jg Hg : Sp ℝ) (r0 c0 : ℕ)
    (sJf : Jf.rows = No ∧ Jf.cols = Ny) (sHf : Hf.rows = Ny ∧ Hf.cols = No * Ny) (sJg : Jg.rows = Ny ∧ Jg.cols = Nx)
    (sHg : Hg.rows = Nx ∧ Hg.cols = Ny * Nx) (hr : r0 + Nx ≤ out.rows) (hc : c0 + No * Nx ≤ out.cols)
    (vJf : ∀ o k, Jf.val (o : Fin No) (k : Fin Ny) = pd (fun y => f y o) k (g x))
    (vHf : ∀ o k l, Hf.val (k : Fin Ny) ((o : Fin No) * Ny + (l : Fin Ny)) = pd (pd (fun y => f y o) k) l (g x))
    (vJg : ∀ k a, Jg.val (k : Fin Ny) (a : Fin Nx) = pd (fun x => g x k) a x)
    (vHg : ∀ k a b, Hg.val (a : Fin Nx) ((k : Fin Ny) * Nx + (b : Fin Nx)) = pd (pd (fun x => g x k) a) b x) :
    ∃ B, d2rFog out Jf Hf Jg Hg r0 c0 = some B ∧ SameShape out B ∧
      (∀ (o : Fin No) (a b : Fin Nx), B.val (r0 + a) (c0 + o * Nx + b) = out.val (r0 + a) (c0 + o * Nx + b) +
        pd (pd (fun x => f (g x) o) a) b x) ∧
      ∀ i j, ¬InBlock r0 c0 Nx (No * Nx) i j → B.val i j = out.val i j := by
  obtain ⟨sJf1, sJf2⟩ := sJf
  obtain ⟨sHf1, sHf2⟩ := sHf
  obtain ⟨sJg1, sJg2⟩ := sJg
  obtain ⟨sHg1, sHg2⟩ := sHg
  obtain ⟨B, hB, hs, hv, ho⟩ := fog_value out Jf Hf Jg Hg r0 c0 (by rw [sJg1, sJf2]) (by rw [sHf1, sJf2])
    (by rw [sHf2, sJf1, sJf2]) (by rw [sHg1, sJg2]) (by rw [sHg2, sJg1, sJg2]) (by rw [sJg2]; exact hr)
    (by rw [sJf1, sJg2]; exact hc)
  rw [sJg2] at hv
  rw [sJf1, sJg2] at ho
  refine ⟨B, hB, hs, fun o a b => ?_, ho⟩
  rw [hv o a b (by rw [sJf1]; exact o.2) a.2 b.2]
  congr 1
  have dg : ∀ k, Differentiable ℝ fun x => g x k := fun k => contDiff_differentiable (hg k)
  have df : Differentiable ℝ fun y => f y o := contDiff_differentiable (hf o)
  have dfk : ∀ k, Differentiable ℝ (pd (fun y => f y o) k) := fun k => pd_differentiable (hf o) k
  have dgk : ∀ k, Differentiable ℝ (pd (fun x => g x k) a) := fun k => pd_differentiable (hg k) a
  have gdiff : Differentiable ℝ g := differentiable_pi.2 dg
  have e1 : pd (fun x => f (g x) o) a = fun x => ∑ k, pd (fun y => f y o) k (g x) * pd (fun x => g x k) a x := by
    funext x'
    exact pd_comp (f := fun y => f y o) (df _) (fun k => dg k x') a
  have dprod : ∀ k ∈ (Finset.univ : Finset (Fin Ny)),
      DifferentiableAt ℝ (fun x => pd (fun y => f y o) k (g x) * pd (fun x => g x k) a x) x :=
    fun k _ => (((dfk k).comp gdiff).mul (dgk k)) x
  rw [e1, pd_sum dprod]
  have e2 : ∀ k, pd (fun x => pd (fun y => f y o) k (g x) * pd (fun x => g x k) a x) b x =
      (∑ l, pd (pd (fun y => f y o) k) l (g x) * pd (fun x => g x l) b x) * pd (fun x => g x k) a x +
      pd (fun y => f y o) k (g x) * pd (pd (fun x => g x k) a) b x := by
    intro k
    rw [pd_mul (f := fun x => pd (fun y => f y o) k (g x)) (((dfk k).comp gdiff) x) (dgk k x)]
    congr 2
    exact pd_comp (f := pd (fun y => f y o) k) (dfk k _) (fun l => dg l x) b
  rw [Finset.sum_congr rfl fun k _ => e2 k, Finset.sum_add_distrib]
  congr 1
  · rw [sJf2, Finset.sum_range]
    have : ∀ l : Fin Ny, (∑ k ∈ Finset.range Ny, Jg.val k a * Hf.val k (o * Ny + l)) * Jg.val l b =
        ∑ k : Fin Ny, pd (pd (fun y => f y o) k) l (g x) * pd (fun x => g x l) b x * pd (fun x => g x k) a x := by
      intro l
      rw [Finset.sum_range, Finset.sum_mul]
      refine Finset.sum_congr rfl fun k _ => ?_
      rw [vJg, vHf, vJg]; ring
    rw [Finset.sum_congr rfl fun l _ => this l, Finset.sum_comm]
    refine Finset.sum_congr rfl fun k _ => ?_
    rw [Finset.sum_mul]
  · rw [sJf2, Finset.sum_range]
    refine Finset.sum_congr rfl fun k _ => ?_
    rw [vJf, vHg]

/-- A composition with nonlinear `f` and `g` (`f y = y^2`, `g x = x^2` at `x = 3`): the second derivative of `x^4` is
108. -/
example : ∃ B, d2rFog (Sp.empty 1 1) (dense 1 1 fun _ _ => (18 : ℚ)) (dense 1 1 fun _ _ => 2) (dense 1 1 fun _ _ => 6)
    (dense 1 1 fun _ _ => 2) = some B ∧ B.val 0 0 = 108 := by
  refine ⟨_, rfl, ?_⟩
  norm_num [Sp.val, Sp.empty, dense, Sp.block]

end Verif.Sparse
