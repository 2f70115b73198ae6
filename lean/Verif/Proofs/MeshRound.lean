import Verif.Model.MeshRound
import Verif.Spec.MeshRound
import Verif.Proofs.Mesh
import Mathlib.Tactic.Positivity

/-! # Mesh refinement in rounded arithmetic: lemmas -/

set_option linter.unusedSectionVars false

namespace Verif.Mesh

variable {F : Type*} [Field F] [LinearOrder F] [IsStrictOrderedRing F] {fl : F → F} {u : F}

namespace Binary

theorem zero (h : Binary fl u) : fl 0 = 0 := by
  have := h.err 0
  simpa using this

theorem pos (h : Binary fl u) {a : F} (ha : 0 ≤ a) : 0 ≤ fl a := by
  have := h.mono ha
  rwa [h.zero] at this

theorem ge (h : Binary fl u) {a : F} (ha : 0 ≤ a) : a - u * a ≤ fl a := by
  have := (abs_le.1 (h.err a)).1
  rw [abs_of_nonneg ha] at this
  linarith

theorem le (h : Binary fl u) {a : F} (ha : 0 ≤ a) : fl a ≤ a + u * a := by
  have := (abs_le.1 (h.err a)).2
  rw [abs_of_nonneg ha] at this
  linarith

theorem half (h : Binary fl u) {a : F} (ha : fl a = a) : fl (a / 2) = a / 2 := by
  have := h.double (a / 2)
  rw [mul_div_cancel₀ _ (two_ne_zero), ha] at this
  linarith

end Binary

/-! ### The pieces of one interval -/

/-- The breakpoint number `k` of `[a, b]` cut into `n` parts by `refine_ph`. -/
def cut (fl : F → F) (n : ℕ) (a b : F) (k : ℕ) : F := fl (a + fl ((k : F) * fl (fl (b - a) / (n : F))))

section cut

variable (hb : Binary fl u) {n : ℕ} {a b : F} (hn : 2 ≤ n) (hu : 4 * n * u ≤ 1) (ra : fl a = a) (rb : fl b = b) (ha : 0 ≤ a)
  (hab : a ≤ b)
include hb ra

theorem cut_zero : cut fl n a b 0 = a := by
  simp [cut, hb.zero, ra]

include hab

theorem tm_nonneg : 0 ≤ fl (fl (b - a) / (n : F)) := hb.pos (div_nonneg (hb.pos (sub_nonneg.2 hab)) (by positivity))

theorem cut_mono : Monotone (cut fl n a b) := by
  intro k l hkl
  have := tm_nonneg hb ra hab (n := n)
  have hc : (k : F) ≤ (l : F) := by exact_mod_cast hkl
  exact hb.mono (add_le_add le_rfl (hb.mono (mul_le_mul_of_nonneg_right hc this)))

theorem cut_rep (k : ℕ) : fl (cut fl n a b k) = cut fl n a b k := hb.idem _

include hn hu rb

theorem u_small : 8 * u ≤ 1 := by
  have : (2 : F) ≤ n := by exact_mod_cast hn
  have := hb.nonneg
  nlinarith

theorem tm_le : fl (fl (b - a) / (n : F)) ≤ (b - a) / n * (1 + u) ^ 2 := by
  have hw : 0 ≤ b - a := sub_nonneg.2 hab
  have h0 : (0 : F) < n := by positivity
  have h1 := hb.le hw
  have h2 := hb.le (div_nonneg (hb.pos hw) h0.le : 0 ≤ fl (b - a) / (n : F))
  have h3 : fl (b - a) / (n : F) ≤ (b - a) / n * (1 + u) := by
    rw [div_mul_eq_mul_div, div_le_div_iff_of_pos_right h0]; linarith
  have := hb.nonneg
  nlinarith

theorem le_tm : (b - a) / n * (1 - 2 * u) ≤ fl (fl (b - a) / (n : F)) := by
  have hw : 0 ≤ b - a := sub_nonneg.2 hab
  have h0 : (0 : F) < n := by positivity
  have h1 := hb.ge hw
  have h2 := hb.ge (div_nonneg (hb.pos hw) h0.le : 0 ≤ fl (b - a) / (n : F))
  have h3 : (b - a) / n * (1 - u) ≤ fl (b - a) / (n : F) := by
    rw [div_mul_eq_mul_div, div_le_div_iff_of_pos_right h0]; linarith
  have hu' := u_small hb hn hu ra rb hab
  have := hb.nonneg
  have h4 : 0 ≤ (b - a) / n := div_nonneg hw h0.le
  nlinarith [mul_nonneg h4 (mul_nonneg this this)]

/-- The sum inside the last rounding stays in `[a, b]`, with a margin. -/
theorem arg_le : fl (((n - 1 : ℕ) : F) * fl (fl (b - a) / (n : F))) ≤ (b - a) - (b - a) / n * (1 - 4 * n * u) := by
  have hw : 0 ≤ b - a := sub_nonneg.2 hab
  have h0 : (0 : F) < n := by positivity
  have h1 := tm_le hb hn hu ra rb hab
  have ht := tm_nonneg hb ra hab (n := n)
  have hc : ((n - 1 : ℕ) : F) = n - 1 := by rw [Nat.cast_sub (by omega)]; simp
  have hc0 : (0 : F) ≤ ((n - 1 : ℕ) : F) := by positivity
  have h2 := hb.le (mul_nonneg hc0 ht)
  have hu' := u_small hb hn hu ra rb hab
  have hu0 := hb.nonneg
  set t := fl (fl (b - a) / (n : F))
  set g := (b - a) / n with hg
  have hg0 : 0 ≤ g := div_nonneg hw h0.le
  have hgn : b - a = n * g := by rw [hg]; field_simp
  have h3 : (1 + u) ^ 3 ≤ 1 + 4 * u := by nlinarith [mul_nonneg hu0 hu0, mul_nonneg hu0 (mul_nonneg hu0 hu0)]
  have h4 : fl (((n - 1 : ℕ) : F) * t) ≤ ((n : F) - 1) * (g * (1 + u) ^ 3) := by
    have h6 := mul_le_mul_of_nonneg_right (mul_le_mul_of_nonneg_left h1 hc0) (show 0 ≤ 1 + u by linarith)
    have h7 : ((n - 1 : ℕ) : F) * (g * (1 + u) ^ 2) * (1 + u) = ((n : F) - 1) * (g * (1 + u) ^ 3) := by rw [hc]; ring
    rw [← h7]
    refine le_trans ?_ h6
    linarith
  have h5 : ((n : F) - 1) * (g * (1 + u) ^ 3) ≤ ((n : F) - 1) * (g * (1 + 4 * u)) := by
    rw [hc] at hc0
    exact mul_le_mul_of_nonneg_left (mul_le_mul_of_nonneg_left h3 hg0) hc0
  rw [hgn]
  nlinarith [mul_nonneg hg0 hu0]

theorem arg_le_b {k : ℕ} (hk : k < n) : a + fl ((k : F) * fl (fl (b - a) / (n : F))) ≤ b := by
  have h1 := arg_le hb hn hu ra rb hab
  have hw : 0 ≤ b - a := sub_nonneg.2 hab
  have h0 : (0 : F) < n := by positivity
  have ht := tm_nonneg hb ra hab (n := n)
  have hc : (k : F) ≤ ((n - 1 : ℕ) : F) := by exact_mod_cast (by omega : k ≤ n - 1)
  have h2 := hb.mono (mul_le_mul_of_nonneg_right hc ht)
  have h3 : 0 ≤ (b - a) / n * (1 - 4 * n * u) := mul_nonneg (div_nonneg hw h0.le) (by linarith)
  linarith

theorem cut_le {k : ℕ} (hk : k < n) : cut fl n a b k ≤ b := by
  have := hb.mono (arg_le_b hb hn hu ra rb hab hk)
  rwa [rb] at this

theorem le_cut (k : ℕ) : a ≤ cut fl n a b k := by
  have := cut_mono hb ra hab (n := n) (Nat.zero_le k)
  rwa [cut_zero hb ra] at this

include ha

/-- Two neighbouring breakpoints are within a factor of two, except at zero. -/
theorem cut_ratio (h2 : a = 0 ∨ b ≤ 2 * a) {k : ℕ} (hk : k + 1 < n) : cut fl n a b k = 0 ∨ cut fl n a b (k + 1) ≤ 2 * cut fl n a b k := by
  rcases h2 with rfl | h2
  · rcases Nat.eq_zero_or_pos k with rfl | hk0
    · exact Or.inl (cut_zero hb ra)
    · right
      have ht := tm_nonneg hb ra hab (n := n)
      unfold cut
      rw [zero_add, zero_add, hb.idem, hb.idem, ← hb.double, ← mul_assoc]
      refine hb.mono (mul_le_mul_of_nonneg_right ?_ ht)
      exact_mod_cast (by omega : k + 1 ≤ 2 * k)
  · right
    have := cut_le hb hn hu ra rb hab (show k + 1 < n by omega)
    have := le_cut hb hn hu ra rb hab k
    linarith

theorem cut_ratio_last (hint : fl (n : F) = n) (h2 : a = 0 ∨ b ≤ 2 * a) : cut fl n a b (n - 1) = 0 ∨ b ≤ 2 * cut fl n a b (n - 1) := by
  right
  rcases h2 with rfl | h2
  · have hu' := u_small hb hn hu ra rb hab
    have hu0 := hb.nonneg
    rcases hn.eq_or_lt with rfl | h3
    · unfold cut
      rw [zero_add, sub_zero, rb]
      have : ((2 : ℕ) : F) = 2 := by norm_num
      rw [this, hb.half rb]
      simp only [Nat.add_one_sub_one, Nat.cast_one, one_mul, hb.half rb]
      linarith
    · have ht := tm_nonneg hb ra hab (n := n)
      have hl := le_tm hb hn hu ra rb hab
      have hc : ((n - 1 : ℕ) : F) = n - 1 := by rw [Nat.cast_sub (by omega)]; simp
      have hc0 : (0 : F) ≤ ((n - 1 : ℕ) : F) := by positivity
      have h4 := hb.ge (mul_nonneg hc0 ht)
      unfold cut
      rw [zero_add, hb.idem]
      have h0 : (0 : F) < n := by positivity
      have h3' : (3 : F) ≤ n := by exact_mod_cast h3
      rw [sub_zero] at hl ht h4 ⊢
      set t := fl (fl b / (n : F))
      set g := b / n with hg
      have hg0 : 0 ≤ g := div_nonneg hab h0.le
      have hgn : b = n * g := by rw [hg]; field_simp
      rw [hc] at h4 hc0 ⊢
      have h5 : ((n : F) - 1) * (g * (1 - 2 * u)) ≤ ((n : F) - 1) * t := mul_le_mul_of_nonneg_left hl hc0
      have h6 : ((n : F) - 1) * (g * (1 - 2 * u)) * (1 - u) ≤ ((n : F) - 1) * t * (1 - u) :=
        mul_le_mul_of_nonneg_right h5 (by linarith)
      have h7 : 1 - 3 * u ≤ (1 - 2 * u) * (1 - u) := by nlinarith
      have h8 : ((n : F) - 1) * g * (1 - 3 * u) ≤ ((n : F) - 1) * g * ((1 - 2 * u) * (1 - u)) :=
        mul_le_mul_of_nonneg_left h7 (mul_nonneg hc0 hg0)
      have h9 : ((n : F) - 1) * g * (5 / 8) ≤ ((n : F) - 1) * g * (1 - 3 * u) :=
        mul_le_mul_of_nonneg_left (by linarith) (mul_nonneg hc0 hg0)
      -- 2 * (n - 1) * 5 / 8 ≥ n for n ≥ 5; the small cases use the bound on u itself
      have h10 : (n : F) * g ≤ 2 * (((n : F) - 1) * g * (1 - 3 * u)) := by
        have : (n : F) ≤ 2 * (((n : F) - 1) * (1 - 3 * u)) := by
          nlinarith
        nlinarith
      nlinarith
  · have := le_cut hb hn hu ra rb hab (n - 1)
    linarith

/-- The pieces of a wide interval are wide. -/
theorem cut_wide (hb1 : b ≤ 1) (hw : 16 * n * u ≤ b - a) {k : ℕ} (hk : k + 1 < n) :
    (b - a) / (2 * n) ≤ cut fl n a b (k + 1) - cut fl n a b k := by
  have hu0 := hb.nonneg
  have ht := tm_nonneg hb ra hab (n := n)
  have hl := le_tm hb hn hu ra rb hab
  have h0 : (0 : F) < n := by positivity
  have h2n : (2 : F) ≤ n := by exact_mod_cast hn
  have e1 := arg_le_b hb hn hu ra rb hab (show k + 1 < n by omega)
  have e0 := arg_le_b hb hn hu ra rb hab (show k < n by omega)
  have k0 : (0 : F) ≤ (k : F) := by positivity
  have k1 : (0 : F) ≤ ((k + 1 : ℕ) : F) := by positivity
  have f1 := hb.ge (mul_nonneg k1 ht)
  have f0 := hb.le (mul_nonneg k0 ht)
  have g1 := hb.ge (add_nonneg ha (hb.pos (mul_nonneg k1 ht)))
  have g0 := hb.le (add_nonneg ha (hb.pos (mul_nonneg k0 ht)))
  have hkn : ((k + 1 : ℕ) : F) + k ≤ 2 * n := by exact_mod_cast (by omega : k + 1 + k ≤ 2 * n)
  have hcast : ((k + 1 : ℕ) : F) = k + 1 := by push_cast; ring
  unfold cut
  set t := fl (fl (b - a) / (n : F))
  set p1 := fl (((k + 1 : ℕ) : F) * t)
  set p0 := fl ((k : F) * t)
  set g := (b - a) / n with hg
  have hg2 : (b - a) / (2 * n) = g / 2 := by rw [hg]; field_simp
  have hgn : b - a = n * g := by rw [hg]; field_simp
  have hg0 : 0 ≤ g := div_nonneg (sub_nonneg.2 hab) h0.le
  have hgu : 16 * u ≤ g := by
    rw [hgn] at hw
    have : n * (16 * u) ≤ n * g := by linarith
    exact le_of_mul_le_mul_left this h0
  rw [hg2]
  -- the sums are at most one
  have s1 : u * (a + p1) ≤ u := (mul_le_mul_of_nonneg_left (e1.trans hb1) hu0).trans_eq (mul_one u)
  have s0 : u * (a + p0) ≤ u := (mul_le_mul_of_nonneg_left (e0.trans hb1) hu0).trans_eq (mul_one u)
  have d : t - 2 * n * u * t ≤ p1 - p0 := by
    have : u * t * (((k + 1 : ℕ) : F) + k) ≤ u * t * (2 * n) := mul_le_mul_of_nonneg_left hkn (mul_nonneg hu0 ht)
    have e : (((k + 1 : ℕ) : F)) * t - (k : F) * t = t := by rw [hcast]; ring
    linarith
  have hnu : 16 * (n * u) ≤ 1 := by linarith
  have q : g * (1 - 2 * u) * (1 - 2 * n * u) ≤ t * (1 - 2 * n * u) := mul_le_mul_of_nonneg_right hl (by linarith)
  have q2 : g * (13 / 16) ≤ g * ((1 - 2 * u) * (1 - 2 * n * u)) := by
    refine mul_le_mul_of_nonneg_left ?_ hg0
    have : 2 * u ≤ n * u := mul_le_mul_of_nonneg_right h2n hu0
    have h4 := mul_nonneg hu0 (mul_nonneg h0.le hu0)
    have : (1 - 2 * u) * (1 - 2 * n * u) = 1 - 2 * u - 2 * (n * u) + 4 * (u * (n * u)) := by ring
    linarith
  have r1 : t * (1 - 2 * n * u) = t - 2 * n * u * t := by ring
  have r2 : g * (1 - 2 * u) * (1 - 2 * n * u) = g * ((1 - 2 * u) * (1 - 2 * n * u)) := by ring
  linarith

theorem cut_wide_last (hb1 : b ≤ 1) (hw : 16 * n * u ≤ b - a) : (b - a) / (2 * n) ≤ b - cut fl n a b (n - 1) := by
  have hu0 := hb.nonneg
  have ht := tm_nonneg hb ra hab (n := n)
  have h0 : (0 : F) < n := by positivity
  have e1 := arg_le_b hb hn hu ra rb hab (show n - 1 < n by omega)
  have e2 := arg_le hb hn hu ra rb hab
  have k1 : (0 : F) ≤ ((n - 1 : ℕ) : F) := by positivity
  have g1 := hb.le (add_nonneg ha (hb.pos (mul_nonneg k1 ht)))
  unfold cut
  set t := fl (fl (b - a) / (n : F))
  set p1 := fl (((n - 1 : ℕ) : F) * t)
  set g := (b - a) / n with hg
  have hg2 : (b - a) / (2 * n) = g / 2 := by rw [hg]; field_simp
  have hgn : b - a = n * g := by rw [hg]; field_simp
  have hg0 : 0 ≤ g := div_nonneg (sub_nonneg.2 hab) h0.le
  have hgu : 16 * u ≤ g := by
    rw [hgn] at hw
    have : n * (16 * u) ≤ n * g := by linarith
    exact le_of_mul_le_mul_left this h0
  rw [hg2]
  have s1 : u * (a + p1) ≤ u := (mul_le_mul_of_nonneg_left (e1.trans hb1) hu0).trans_eq (mul_one u)
  have hnu : 16 * (n * u) ≤ 1 := by linarith
  have : g * (3 / 4) ≤ g * (1 - 4 * n * u) := mul_le_mul_of_nonneg_left (by linarith) hg0
  linarith

end cut

/-! ### Spans -/

theorem spans_cons (b : F) (v : Ival F) (B : Mesh F) : spans b (v :: B) = (v, headOr b B) :: spans b B := by
  cases B <;> simp [spans, headOr]

theorem spans_append (b : F) (A C : Mesh F) : spans b (A ++ C) = spans (headOr b C) A ++ spans b C := by
  induction A with
  | nil => simp [spans]
  | cons v A ih =>
    rw [List.cons_append, spans_cons, spans_cons, ih]
    cases A <;> simp [headOr]

theorem mem_spans_range (b : F) (f : ℕ → Ival F) (s n : ℕ) {x : Ival F × F} (hx : x ∈ spans b ((List.range' s n).map f)) :
    ∃ k, s ≤ k ∧ k < s + n ∧ x.1 = f k ∧ x.2 = if k + 1 < s + n then (f (k + 1)).tau0 else b := by
  induction n generalizing s with
  | zero => simp [spans] at hx
  | succ n ih =>
    rw [List.range'_succ, List.map_cons, spans_cons, List.mem_cons] at hx
    rcases hx with rfl | hx
    · refine ⟨s, le_rfl, by omega, rfl, ?_⟩
      cases n with
      | zero => simp [headOr]
      | succ n => simp [headOr, List.range'_succ]
    · obtain ⟨k, h1, h2, h3, h4⟩ := ih (s + 1) hx
      refine ⟨k, by omega, by omega, h3, ?_⟩
      rw [h4]
      have : k + 1 < s + 1 + n ↔ k + 1 < s + (n + 1) := by omega
      simp only [this]

/-- What is kept by the operations, for one interval and its end. -/
structure Good (fl : F → F) (Kmin Kmax : ℕ) (d : F) (s : Ival F × F) : Prop where
  ra : fl s.1.tau0 = s.1.tau0
  rb : fl s.2 = s.2
  nonneg : 0 ≤ s.1.tau0
  le : s.1.tau0 ≤ s.2
  one : s.2 ≤ 1
  wide : d ≤ s.2 - s.1.tau0
  ratio : s.1.tau0 = 0 ∨ s.2 ≤ 2 * s.1.tau0
  degree : Kmin ≤ s.1.K ∧ s.1.K ≤ Kmax + 1

theorem Good.weaken {Kmin Kmax : ℕ} {d d' : F} {s : Ival F × F} (h : Good fl Kmin Kmax d s) (hd : d' ≤ d) : Good fl Kmin Kmax d' s :=
  { h with wide := hd.trans h.wide }

/-- The parts of `[a, b]`. -/
def parts (fl : F → F) (n K0 K : ℕ) (a b : F) : Mesh F :=
  (List.range' 0 n).map fun k : ℕ => ⟨if k = 0 then K0 else K, cut fl n a b k⟩

/-- What may be asked of the widths before (`d`) and after (`d'`) a refinement into at most `N` parts. -/
def Shrinks (u : F) (N : ℕ) (d d' : F) : Prop := d' = 0 ∧ 0 ≤ d ∨ 8 * u ≤ d' ∧ 2 * N * d' ≤ d ∧ 0 < d'

theorem parts_good (hb : Binary fl u) {N n Kmin Kmax K0 K : ℕ} {d d' : F} (hn : 2 ≤ n) (hN : n ≤ N) (hu : 4 * N * u ≤ 1)
    (hint : fl (n : F) = n) (hd : Shrinks u N d d') (hK : Kmin ≤ K ∧ K ≤ Kmax + 1) {v : Ival F} {b : F}
    (h : Good fl Kmin Kmax d (v, b)) (hK0 : Kmin ≤ K0 ∧ K0 ≤ Kmax + 1) :
    ∀ s ∈ spans b (parts fl n K0 K v.tau0 b), Good fl Kmin Kmax d' s := by
  have hnN : (n : F) ≤ N := by exact_mod_cast hN
  have hu0 := hb.nonneg
  have hu' : 4 * n * u ≤ 1 := by
    have := mul_le_mul_of_nonneg_right hnN hu0
    linarith
  obtain ⟨ra, rb, ha, hab, h1, hw, h2, -⟩ := h
  have h0 : (0 : F) < n := by positivity
  have hwide : ∀ x : F, 0 ≤ x → (16 * n * u ≤ b - v.tau0 → (b - v.tau0) / (2 * n) ≤ x) → d' ≤ x := by
    intro x hx hx'
    rcases hd with ⟨rfl, -⟩ | ⟨hd1, hd2, hd3⟩
    · exact hx
    · have e1 : 2 * n * d' ≤ 2 * N * d' := mul_le_mul_of_nonneg_right (by linarith) hd3.le
      have e2 : 2 * n * (8 * u) ≤ 2 * n * d' := mul_le_mul_of_nonneg_left hd1 (by positivity)
      refine le_trans ?_ (hx' (by simp only at hw; linarith))
      rw [le_div_iff₀ (by positivity)]
      simp only at hw
      linarith
  intro s hs
  obtain ⟨k, -, hk, e1, e2⟩ := mem_spans_range _ _ _ _ hs
  rw [zero_add] at hk e2
  have ht : s.1.tau0 = cut fl n v.tau0 b k := by rw [e1]
  have hdeg : Kmin ≤ s.1.K ∧ s.1.K ≤ Kmax + 1 := by
    rw [e1]
    simp only
    split_ifs
    · exact hK0
    · exact hK
  have hle := le_cut hb hn hu' ra rb hab k
  by_cases hk1 : k + 1 < n
  · rw [if_pos hk1] at e2
    have hm := cut_mono hb ra hab (n := n) (Nat.le_succ k)
    refine ⟨?_, ?_, ?_, ?_, ?_, ?_, ?_, hdeg⟩
    · rw [ht]; exact cut_rep hb ra hab k
    · rw [e2]; exact cut_rep hb ra hab _
    · rw [ht]; simp only at ha; linarith
    · rw [ht, e2]; exact hm
    · rw [e2]; exact (cut_le hb hn hu' ra rb hab hk1).trans h1
    · rw [ht, e2]
      exact hwide _ (sub_nonneg.2 hm) fun h => cut_wide hb hn hu' ra rb ha hab h1 h hk1
    · rw [ht, e2]; exact cut_ratio hb hn hu' ra rb ha hab h2 hk1
  · rw [if_neg hk1] at e2
    obtain rfl : k = n - 1 := by omega
    have hm := cut_le hb hn hu' ra rb hab hk
    refine ⟨?_, ?_, ?_, ?_, ?_, ?_, ?_, hdeg⟩
    · rw [ht]; exact cut_rep hb ra hab _
    · rw [e2]; exact rb
    · rw [ht]; simp only at ha; linarith
    · rw [ht, e2]; exact hm
    · rw [e2]; exact h1
    · rw [ht, e2]
      exact hwide _ (sub_nonneg.2 hm) fun h => cut_wide_last hb hn hu' ra rb ha hab h1 h
    · rw [ht, e2]; exact cut_ratio_last hb hn hu' ra rb ha hab hint h2

/-! ### Refinement -/

theorem splitLoopR_eq (Kmin : ℕ) (a t : F) (n : ℕ) (A : Mesh F) (v : Ival F) (B : Mesh F) :
    splitLoopR fl Kmin A.length a t n (A ++ v :: B) =
      A ++ v :: ((List.range' 1 (n - 1)).map (fun k : ℕ => (⟨Kmin, fl (a + fl (fl (k : F) * t))⟩ : Ival F)) ++ B) := by
  induction n generalizing B with
  | zero => simp [splitLoopR]
  | succ n ih =>
    cases n with
    | zero => simp [splitLoopR]
    | succ n =>
      rw [splitLoopR, insertIdx_after, ih]
      simp only [Nat.add_sub_cancel]
      rw [List.range'_concat]
      simp [add_comm]

/-- What becomes of one interval. -/
def refinedR (fl : F → F) (Kmin Kmax D : ℕ) (v : Ival F) (b : F) : Mesh F :=
  if Kmax < D ∨ Kmax < v.K then parts fl (max 2 ((D + Kmin - 1) / Kmin)) v.K Kmin v.tau0 b
  else if D < v.K then [v]
  else [⟨D, v.tau0⟩]

theorem refinePhR_append (hb : Binary fl u) {N : ℕ} (hint : ∀ k : ℕ, k ≤ N → fl (k : F) = k) (Kmin Kmax D : ℕ) (hK : 1 ≤ Kmin)
    (hN : max 2 ((D + Kmin - 1) / Kmin) ≤ N) (A : Mesh F) (v : Ival F) (B : Mesh F) (rv : fl v.tau0 = v.tau0) :
    refinePhR fl Kmin Kmax (A ++ v :: B) A.length D = some (A ++ refinedR fl Kmin Kmax D v (headOr 1 B) ++ B) := by
  unfold refinePhR refinedR
  rw [show (A ++ v :: B)[A.length]? = some v by simp]
  simp only [tauf_append]
  split_ifs with h1 h2 h3 h4
  · omega
  · obtain ⟨n, hn⟩ : ∃ n, max 2 ((D + Kmin - 1) / Kmin) = n + 1 := ⟨max 2 ((D + Kmin - 1) / Kmin) - 1, by omega⟩
    rw [hn] at hN ⊢
    rw [splitLoopR_eq, hint _ hN]
    unfold parts
    rw [List.range'_succ, List.map_cons, if_pos rfl, cut_zero hb rv]
    simp only [Nat.add_sub_cancel, zero_add, List.append_assoc, List.cons_append]
    congr 3
    congr 1
    apply List.map_congr_left
    intro k hk
    rw [List.mem_range'_1] at hk
    rw [if_neg (by omega), hint k (by omega)]
    rfl
  · simp
  · simp
  · omega

theorem refinedR_good (hb : Binary fl u) {N : ℕ} (hint : ∀ k : ℕ, k ≤ N → fl (k : F) = k) (hu : 4 * N * u ≤ 1) {Kmin Kmax D : ℕ}
    (hKK : Kmin ≤ Kmax) (hN : max 2 ((D + Kmin - 1) / Kmin) ≤ N) {d d' : F} (hd : Shrinks u N d d') (hdd : d' ≤ d) {v : Ival F} {b : F}
    (h : Good fl Kmin Kmax d (v, b)) :
    (∀ s ∈ spans b (refinedR fl Kmin Kmax D v b), Good fl Kmin Kmax d' s) ∧
      ∀ c B, headOr c (refinedR fl Kmin Kmax D v b ++ B) = v.tau0 := by
  unfold refinedR
  split_ifs with h1 h2
  · refine ⟨parts_good hb (le_max_left _ _) hN hu (hint _ hN) hd ⟨le_rfl, by omega⟩ h h.degree, ?_⟩
    intro c B
    obtain ⟨n, hn⟩ : ∃ n, max 2 ((D + Kmin - 1) / Kmin) = n + 1 := ⟨max 2 ((D + Kmin - 1) / Kmin) - 1, by omega⟩
    rw [hn]
    simp [parts, List.range'_succ, headOr, cut_zero hb h.ra]
  · simpa [spans, headOr] using h.weaken hdd
  · have hk : Kmin ≤ v.K := h.degree.1
    have hg := h.weaken hdd
    simp only [spans, List.mem_singleton, forall_eq, headOr, List.singleton_append, implies_true, and_true]
    exact { hg with degree := ⟨by simp only; omega, by simp only; omega⟩ }

/-! ### Histories -/

/-- What is kept by the operations. -/
structure Kept (fl : F → F) (Kmin Kmax : ℕ) (d : F) (m : Mesh F) : Prop where
  starts : headOr 1 m = 0
  good : ∀ s ∈ spans 1 m, Good fl Kmin Kmax d s

theorem Kept.weaken {Kmin Kmax : ℕ} {d d' : F} {m : Mesh F} (h : Kept fl Kmin Kmax d m) (hd : d' ≤ d) : Kept fl Kmin Kmax d' m :=
  ⟨h.starts, fun s hs => (h.good s hs).weaken hd⟩

theorem pieces_le {N D Kmin : ℕ} (hK : 1 ≤ Kmin) (hN : 2 ≤ N) (hD : D ≤ N * Kmin) : max 2 ((D + Kmin - 1) / Kmin) ≤ N := by
  refine max_le hN ?_
  have : (D + Kmin - 1) / Kmin < N + 1 := by
    rw [Nat.div_lt_iff_lt_mul (by omega), Nat.add_mul]
    omega
  omega

section

variable (hb : Binary fl u) {N : ℕ} (hint : ∀ k : ℕ, k ≤ N → fl (k : F) = k) (hu : 4 * N * u ≤ 1) {Kmin Kmax : ℕ} (hK : 1 ≤ Kmin)
  (hKK : Kmin ≤ Kmax) (hN : 2 ≤ N) {d d' : F} (hd : Shrinks u N d d') (hdd : d' ≤ d)
include hb hint hu hK hKK hN hd hdd

theorem refinePhR_kept {m m' : Mesh F} {i D : ℕ} (hD : D ≤ N * Kmin) (h : Kept fl Kmin Kmax d m)
    (hr : refinePhR fl Kmin Kmax m i D = some m') : Kept fl Kmin Kmax d' m' := by
  cases hv : m[i]? with
  | none => simp [refinePhR, hv] at hr
  | some v =>
    obtain ⟨A, B, rfl, rfl⟩ := getElem?_split m i v hv
    have hg := h.good
    rw [spans_append, spans_cons] at hg
    have hgv := hg (v, headOr 1 B) (by simp)
    have hp := pieces_le hK hN hD
    rw [refinePhR_append hb hint Kmin Kmax D hK hp A v B hgv.ra, Option.some_inj] at hr
    subst hr
    obtain ⟨r1, r2⟩ := refinedR_good hb hint hu hKK hp hd hdd hgv
    rw [List.append_assoc]
    refine ⟨?_, ?_⟩
    · have h0 := h.starts
      cases A with
      | nil => rw [List.nil_append, r2]; simpa [headOr] using h0
      | cons w A => simpa [headOr] using h0
    · intro s hs
      rw [spans_append, spans_append, r2, List.mem_append, List.mem_append] at hs
      rcases hs with hs | hs | hs
      · exact (hg s (by rw [List.mem_append]; left; simpa [headOr] using hs)).weaken hdd
      · exact r1 s hs
      · exact (hg s (by simp [hs])).weaken hdd

theorem refineLoopR_kept (env : Env F) (target : F) (A : Mesh F) (errs : List F) (B m' : Mesh F) (hl : A.length = errs.length)
    (hD : ∀ K ≤ Kmax + 1, ∀ e ∈ errs, target < e → K + env.growth K e target ≤ N * Kmin)
    (hg : ∀ s ∈ spans (headOr 1 B) A, Good fl Kmin Kmax d s)
    (hr : refineErrorsLoopR fl env Kmin Kmax target ((List.range A.length).reverse.zip errs.reverse) (A ++ B) = some m') :
    ∃ A', m' = A' ++ B ∧ (∀ c, headOr c A' = headOr c A) ∧ ∀ s ∈ spans (headOr 1 B) A', Good fl Kmin Kmax d' s := by
  induction A using List.reverseRecOn generalizing errs B with
  | nil =>
    obtain rfl : errs = [] := List.length_eq_zero_iff.1 (by simpa using hl.symm)
    simp only [refineErrorsLoopR, List.length_nil, List.range_zero, List.reverse_nil, List.zip_nil_left, List.nil_append,
      Option.some_inj] at hr
    exact ⟨[], by simp [hr], fun c => rfl, by simp [spans]⟩
  | append_singleton A v ih =>
    obtain ⟨errs, e, rfl⟩ : ∃ es e, errs = es ++ [e] := by
      rcases List.eq_nil_or_concat errs with h | ⟨es, e, h⟩
      · simp [h] at hl
      · exact ⟨es, e, by simpa using h⟩
    have hl' : A.length = errs.length := by simpa using hl
    rw [spans_append] at hg
    have hgv : Good fl Kmin Kmax d (v, headOr 1 B) := hg _ (by simp [spans])
    have hgA : ∀ s ∈ spans v.tau0 A, Good fl Kmin Kmax d s := fun s hs => hg s (by rw [List.mem_append]; left; simpa [headOr] using hs)
    have hz : (List.range (A ++ [v]).length).reverse.zip (errs ++ [e]).reverse =
        (A.length, e) :: (List.range A.length).reverse.zip errs.reverse := by
      rw [List.length_append, List.length_singleton, List.range_succ]
      simp
    rw [hz, refineErrorsLoopR] at hr
    cases hs : refineErrorsStepR fl env Kmin Kmax target (A ++ [v] ++ B) A.length e with
    | none => rw [hs] at hr; simp at hr
    | some m1 =>
      rw [hs] at hr
      -- the interval becomes `R`
      obtain ⟨R, rfl, r1, r2⟩ : ∃ R, m1 = A ++ (R ++ B) ∧ (∀ s ∈ spans (headOr 1 B) R, Good fl Kmin Kmax d' s) ∧
          ∀ c B', headOr c (R ++ B') = v.tau0 := by
        have hi : nCollocIval (A ++ [v] ++ B) A.length = some v.K := by simp [nCollocIval]
        unfold refineErrorsStepR at hs
        rw [hi] at hs
        simp only at hs
        by_cases ht : target < e
        · rw [if_pos ht] at hs
          have hp := pieces_le hK hN (hD v.K hgv.degree.2 e (by simp) ht)
          rw [List.append_assoc, List.singleton_append, refinePhR_append hb hint Kmin Kmax _ hK hp A v B hgv.ra, Option.some_inj] at hs
          obtain ⟨r1, r2⟩ := refinedR_good hb hint hu hKK hp hd hdd hgv
          exact ⟨_, by rw [← hs, List.append_assoc], r1, r2⟩
        · rw [if_neg ht, Option.some_inj] at hs
          refine ⟨[v], by rw [← hs, List.append_assoc], ?_, fun c B' => rfl⟩
          simpa [spans] using hgv.weaken hdd
      obtain ⟨A', rfl, a1, a2⟩ := ih errs (R ++ B) hl' (fun K hK e he => hD K hK e (by simp [he])) (by rw [r2]; exact hgA) hr
      refine ⟨A' ++ R, by simp, ?_, ?_⟩
      · intro c
        cases A with
        | nil =>
          cases A' with
          | nil => simpa [headOr] using r2 c []
          | cons w A' =>
            exfalso
            have h1 := a1 (w.tau0 + 1)
            simp [headOr] at h1
        | cons x A =>
          cases A' with
          | nil =>
            exfalso
            have h1 := a1 (x.tau0 + 1)
            simp [headOr] at h1
          | cons w A' => simpa [headOr] using a1 c
      · intro s hs
        rw [spans_append, List.mem_append] at hs
        rcases hs with hs | hs
        · refine a2 s ?_
          rw [r2]
          have := r2 (headOr 1 B) []
          rw [List.append_nil] at this
          rwa [this] at hs
        · exact r1 s hs

theorem refineErrorsR_kept (env : Env F) {m m' : Mesh F} {errs : List F} {target : F}
    (hD : ∀ K ≤ Kmax + 1, ∀ e ∈ errs, target < e → K + env.growth K e target ≤ N * Kmin) (h : Kept fl Kmin Kmax d m)
    (hr : refineErrorsR fl env Kmin Kmax m errs target = some m') : Kept fl Kmin Kmax d' m' := by
  unfold refineErrorsR at hr
  split_ifs at hr with hl
  obtain ⟨A', rfl, a1, a2⟩ := refineLoopR_kept hb hint hu hK hKK hN hd hdd env target m errs [] m' hl hD
    (by simpa [headOr] using h.good) (by simpa using hr)
  rw [List.append_nil]
  exact ⟨by rw [a1]; exact h.starts, by simpa [headOr] using a2⟩

end

theorem spans_map (f : Ival F → Ival F) (hf : ∀ v, (f v).tau0 = v.tau0) (b : F) (m : Mesh F) :
    spans b (m.map f) = (spans b m).map fun s => (f s.1, s.2) := by
  induction m with
  | nil => rfl
  | cons v m ih =>
    rw [List.map_cons, spans_cons, spans_cons, ih, List.map_cons]
    cases m <;> simp [headOr, hf]

theorem headOr_map (f : Ival F → Ival F) (hf : ∀ v, (f v).tau0 = v.tau0) (b : F) (m : Mesh F) : headOr b (m.map f) = headOr b m := by
  cases m <;> simp [headOr, hf]

theorem Kept.map {Kmin Kmax : ℕ} {d : F} {m : Mesh F} (h : Kept fl Kmin Kmax d m) (f : Ival F → Ival F)
    (hf : ∀ v, (f v).tau0 = v.tau0) (hk : ∀ v, Kmin ≤ v.K ∧ v.K ≤ Kmax + 1 → Kmin ≤ (f v).K ∧ (f v).K ≤ Kmax + 1) :
    Kept fl Kmin Kmax d (m.map f) := by
  refine ⟨by rw [headOr_map f hf]; exact h.starts, ?_⟩
  intro s hs
  rw [spans_map f hf, List.mem_map] at hs
  obtain ⟨t, ht, rfl⟩ := hs
  obtain ⟨h1, h2, h3, h4, h5, h6, h7, h8⟩ := h.good t ht
  exact ⟨by simpa [hf] using h1, h2, by simpa [hf] using h3, by simpa [hf] using h4, h5, by simpa [hf] using h6, by simpa [hf] using h7,
    hk _ h8⟩

theorem setNColloc_kept {Kmin Kmax : ℕ} {d : F} {m m' : Mesh F} {i K : ℕ} (h : Kept fl Kmin Kmax d m)
    (hr : setNColloc Kmin Kmax m i K = some m') : Kept fl Kmin Kmax d m' := by
  cases hv : m[i]? with
  | none => simp [setNColloc, hv] at hr
  | some v =>
    obtain ⟨A, B, rfl, rfl⟩ := getElem?_split m i v hv
    unfold setNColloc at hr
    rw [hv] at hr
    simp only at hr
    split_ifs at hr with hk
    rw [Option.some_inj] at hr
    subst hr
    rw [show (A ++ v :: B).set A.length ⟨K, v.tau0⟩ = A ++ ⟨K, v.tau0⟩ :: B by simp]
    have hg := h.good
    rw [spans_append, spans_cons] at hg
    refine ⟨?_, ?_⟩
    · have h0 := h.starts
      cases A <;> simpa [headOr] using h0
    · intro s hs
      rw [spans_append, spans_cons, List.mem_append, List.mem_cons] at hs
      rcases hs with hs | rfl | hs
      · exact hg s (by rw [List.mem_append]; left; simpa [headOr] using hs)
      · exact { hg (v, headOr 1 B) (by simp) with degree := hk }
      · exact hg s (by simp [hs])

section

variable (hb : Binary fl u) {N : ℕ} (hint : ∀ k : ℕ, k ≤ N → fl (k : F) = k) (hu : 4 * N * u ≤ 1) {Kmin Kmax : ℕ} (hK : 1 ≤ Kmin)
  (hKK : Kmin ≤ Kmax) (hN : 2 ≤ N)
include hb hint hu hK hKK hN

/-- One operation; only refinements shrink. -/
theorem stepR_kept (env : Env F) {m m' : Mesh F} {o : Op F} {d d' : F} (hd : Shrinks u N d d') (hdd : d' ≤ d)
    (ho : o.AsksAtMost env Kmax (N * Kmin)) (h : Kept fl Kmin Kmax d m) (hr : stepR fl env Kmin Kmax m o = some m') :
    Kept fl Kmin Kmax (if refinements [o] = 0 then d else d') m' := by
  cases o with
  | refinePh i D => exact refinePhR_kept hb hint hu hK hKK hN hd hdd ho h hr
  | refineErrors errs target => exact refineErrorsR_kept hb hint hu hK hKK hN hd hdd env ho h hr
  | setNColloc i K => exact setNColloc_kept h hr
  | increaseDegrees =>
    simp only [stepR, increaseDegrees, Option.some_inj] at hr
    rw [← hr]
    exact h.map _ (fun v => rfl) fun v hv => ⟨by simp only; omega, by simp only; omega⟩
  | decreaseDegrees =>
    simp only [stepR, decreaseDegrees, Option.some_inj] at hr
    rw [← hr]
    exact h.map _ (fun v => rfl) fun v hv => ⟨by simp only; omega, by simp only; omega⟩

theorem runR_kept (env : Env F) (ops : List (Op F)) {m m' : Mesh F} (ho : ∀ o ∈ ops, o.AsksAtMost env Kmax (N * Kmin))
    (h : Kept fl Kmin Kmax 0 m) (hr : runR fl env Kmin Kmax m ops = some m') : Kept fl Kmin Kmax 0 m' := by
  induction ops generalizing m with
  | nil => simp only [runR, Option.some_inj] at hr; rwa [← hr]
  | cons o ops ih =>
    rw [runR] at hr
    cases hs : stepR fl env Kmin Kmax m o with
    | none => rw [hs] at hr; simp at hr
    | some m1 =>
      rw [hs] at hr
      have := stepR_kept hb hint hu hK hKK hN env (d := 0) (d' := 0) (Or.inl ⟨rfl, le_rfl⟩) le_rfl (ho o (by simp)) h hs
      exact ih (fun o ho' => ho o (by simp [ho'])) (by simpa using this) hr

theorem runR_wide (env : Env F) (ops : List (Op F)) {m m' : Mesh F} {d : F} (hd0 : 0 < d)
    (ho : ∀ o ∈ ops, o.AsksAtMost env Kmax (N * Kmin))
    (hd : 8 * u * (2 * N) ^ refinements ops ≤ d) (h : Kept fl Kmin Kmax d m) (hr : runR fl env Kmin Kmax m ops = some m') :
    Kept fl Kmin Kmax (d / (2 * N) ^ refinements ops) m' := by
  have hN' : (1 : F) ≤ 2 * N := by
    have : (2 : F) ≤ N := by exact_mod_cast hN
    linarith
  have h0 : (0 : F) < 2 * N := by linarith
  induction ops generalizing m d with
  | nil =>
    simp only [runR, Option.some_inj] at hr
    rw [← hr]
    simpa [refinements] using h
  | cons o ops ih =>
    rw [runR] at hr
    cases hs : stepR fl env Kmin Kmax m o with
    | none => rw [hs] at hr; simp at hr
    | some m1 =>
      rw [hs] at hr
      by_cases hc : refinements [o] = 0
      · have hc' : refinements (o :: ops) = refinements ops := by
          cases o <;> simp_all [refinements]
        rw [hc'] at hd ⊢
        have := stepR_kept hb hint hu hK hKK hN env (d := d) (d' := 0) (Or.inl ⟨rfl, hd0.le⟩) hd0.le (ho o (by simp)) h hs
        rw [if_pos hc] at this
        exact ih hd0 (fun o ho' => ho o (by simp [ho'])) hd this hr
      · have hc' : refinements (o :: ops) = refinements ops + 1 := by
          cases o <;> simp_all [refinements]
        rw [hc'] at hd ⊢
        have hp : (1 : F) ≤ (2 * N) ^ refinements ops := one_le_pow₀ hN'
        have hd1 : 8 * u * (2 * N) ^ refinements ops ≤ d / (2 * N) := by
          rw [le_div_iff₀ h0]
          rw [pow_succ] at hd
          linarith
        have hu0 := hb.nonneg
        have hd2 : 8 * u ≤ d / (2 * N) := le_trans (le_mul_of_one_le_right (by positivity) hp) hd1
        have hd3 : 0 < d / (2 * N) := div_pos hd0 h0
        have := stepR_kept hb hint hu hK hKK hN env (d := d) (d' := d / (2 * N))
          (Or.inr ⟨hd2, by rw [mul_div_cancel₀ _ h0.ne'], hd3⟩) (div_le_self hd0.le hN') (ho o (by simp)) h hs
        rw [if_neg hc] at this
        have := ih hd3 (fun o ho' => ho o (by simp [ho'])) hd1 this hr
        rwa [div_div, ← pow_succ'] at this

end

end Verif.Mesh
