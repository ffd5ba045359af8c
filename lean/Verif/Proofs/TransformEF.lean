import Verif.Proofs.Transform1D

/-!
# Helper lemmas for the `exact=True` re-expansion

In exact arithmetic the compensation terms vanish; what distinguishes the variant from
`TransformChebInPlace1D` is that the last entry is always stored but `maxRow` only grows when the
entry exceeds the threshold.
-/

set_option linter.unusedSectionVars false
set_option linter.unusedSimpArgs false

namespace YRoots

open Finset

section Reduce

variable {K : Type*} [Field K] [LinearOrder K]
variable {V : Type*} [AddCommGroup V] [Module K V]

theorem twoSum_eq (a b : K) : twoSum a b = (a + b, 0) := by
  simp [twoSum]

theorem split_eq (a : K) : split a = (a, 0) := by
  simp [split]

theorem twoProdWithSplit_eq (a b : K) : twoProdWithSplit a b a 0 = (a * b, 0) := by
  simp [twoProdWithSplit, split_eq]

theorem twoProd_eq (a b : K) : twoProd a b = (a * b, 0) := by
  simp [twoProd, split_eq]

/-- Embed a state without error terms. -/
abbrev EState.ofT (s : TState K V) : EState K V where
  arr1 := s.arr1
  arr2 := s.arr2
  arr3 := s.arr3
  arr1E := fun _ => 0
  arr2E := fun _ => 0
  arr3E := fun _ => 0
  out := s.out
  maxRow := s.maxRow

/-- Embed a pair of buffers. -/
def emb (p : (ℕ → K) × (ℕ → V)) : (ℕ → K) × (ℕ → K) × (ℕ → V) := (p.1, fun _ => 0, p.2)

theorem putRowE_emb (c : V) (i : ℕ) (v w e : K) (p : (ℕ → K) × (ℕ → V)) (hv : v = w) (he : e = 0) :
    putRowE c i v e (emb p) = emb (putRow c i w p) := by
  subst hv he
  simp [putRowE, emb, putRow]

theorem foldl_putRowE (c : V) (f g e : ℕ → K) (l : List ℕ) (p : (ℕ → K) × (ℕ → V))
    (hf : ∀ i, f i = g i) (he : ∀ i, e i = 0) :
    l.foldl (fun p i => putRowE c i (f i) (e i) p) (emb p)
      = emb (l.foldl (fun p i => putRow c i (g i) p) p) := by
  induction l generalizing p with
  | nil => rfl
  | cons a l ih => rw [List.foldl_cons, putRowE_emb c a _ (g a) _ p (hf a) (he a), ih]; rfl

/-- The step of the error-free variant without compensation terms. -/
def fStep (thr : K) (coeffs : ℕ → V) (α β : K) (s : TState K V) (col : ℕ) : TState K V :=
  let c := coeffs col
  let finalVal := α * s.arr2 (s.maxRow - 1)
  let q := putRow c s.maxRow finalVal (tRows c α β s)
  { arr1 := s.arr2, arr2 := q.1, arr3 := s.arr1, out := q.2
    maxRow := if |finalVal| > thr then s.maxRow + 1 else s.maxRow }

theorem eStep_ofT (thr : K) (coeffs : ℕ → V) (α β : K) (s : TState K V) (col : ℕ) :
    eStep thr coeffs α β (EState.ofT s) col = EState.ofT (fStep thr coeffs α β s col) := by
  have h : ∀ (c : V), putRowE c s.maxRow (α * s.arr2 (s.maxRow - 1)) 0 (emb (tRows c α β s))
      = emb (putRow c s.maxRow (α * s.arr2 (s.maxRow - 1)) (tRows c α β s)) :=
    fun c => putRowE_emb c _ _ _ _ _ rfl rfl
  have hr : ∀ (c : V),
      putRowE c (s.maxRow - 1)
        (β * (2 * s.arr2 (s.maxRow - 1)) +
          α * ((if s.maxRow - 1 = 1 then 2 else 1) * s.arr2 (s.maxRow - 1 - 1))
          + -s.arr1 (s.maxRow - 1)) 0
        ((List.range' 2 (s.maxRow - 1 - 2)).foldl
          (fun p i => putRowE c i (β * (2 * s.arr2 i) + α * (s.arr2 (i - 1) + s.arr2 (i + 1))
            + -s.arr1 i) 0 p)
          (if s.maxRow > 2 then
            putRowE c 1 (β * (2 * s.arr2 1) + α * (2 * s.arr2 0 + s.arr2 2) + -s.arr1 1) 0
              (putRowE c 0 (β * (2 * s.arr2 0) + α * s.arr2 1 + -s.arr1 0) 0
                (emb (s.arr3, s.out)))
          else putRowE c 0 (β * (2 * s.arr2 0) + α * s.arr2 1 + -s.arr1 0) 0
                (emb (s.arr3, s.out))))
      = emb (tRows c α β s) := by
    intro c
    unfold tRows
    simp only []
    rw [putRowE_emb c 0 _ (-s.arr1 0 + α * s.arr2 1 + 2 * β * s.arr2 0) _ _ (by ring) rfl]
    rw [putRowE_emb c 1 _ (-s.arr1 1 + α * (2 * s.arr2 0 + s.arr2 2) + 2 * β * s.arr2 1) _ _
      (by ring) rfl]
    rw [← apply_ite emb]
    rw [foldl_putRowE c _ (fun i => -s.arr1 i + α * (s.arr2 (i - 1) + s.arr2 (i + 1))
      + 2 * β * s.arr2 i) (fun _ => 0) _ _ (fun i => by ring) (fun _ => rfl)]
    exact putRowE_emb c _ _ _ _ _ (by ring) rfl
  unfold eStep
  simp only [split_eq, twoProdWithSplit_eq, twoSum_eq, EState.ofT, mul_zero, add_zero, neg_zero]
  rw [show (s.arr3, (fun _ => (0 : K)), s.out) = emb (s.arr3, s.out) from rfl]
  simp only [hr, h]
  simp only [fStep, emb]

theorem eStepSplit_ofT [NeZero (2 : K)] (thr : K) (coeffs : ℕ → V) (bs : K) (s : TState K V) (col : ℕ) :
    eStepSplit thr coeffs bs (EState.ofT s) col
      = EState.ofT (fStep thr coeffs (1 / 2) (bs * (1 / 2)) s col) := by
  have h2 : (2 : K) ≠ 0 := NeZero.ne 2
  have h : ∀ (c : V), putRowE c s.maxRow (s.arr2 (s.maxRow - 1) / 2) 0
        (emb (tRows c (1 / 2) (bs * (1 / 2)) s))
      = emb (putRow c s.maxRow (1 / 2 * s.arr2 (s.maxRow - 1)) (tRows c (1 / 2) (bs * (1 / 2)) s)) :=
    fun c => putRowE_emb c _ _ _ _ _ (by ring) rfl
  have hr : ∀ (c : V),
      putRowE c (s.maxRow - 1)
        ((if s.maxRow - 1 = 1 then 1 else 1 / 2) * s.arr2 (s.maxRow - 1 - 1)
          + bs * s.arr2 (s.maxRow - 1) + -s.arr1 (s.maxRow - 1)) 0
        ((List.range' 2 (s.maxRow - 1 - 2)).foldl
          (fun p i => putRowE c i ((s.arr2 (i - 1) + s.arr2 (i + 1)) / 2 + bs * s.arr2 i
            + -s.arr1 i) 0 p)
          (if s.maxRow > 2 then
            putRowE c 1 (s.arr2 0 + s.arr2 2 / 2 + bs * s.arr2 1 + -s.arr1 1) 0
              (putRowE c 0 (s.arr2 1 / 2 + bs * s.arr2 0 + -s.arr1 0) 0
                (emb (s.arr3, s.out)))
          else putRowE c 0 (s.arr2 1 / 2 + bs * s.arr2 0 + -s.arr1 0) 0
                (emb (s.arr3, s.out))))
      = emb (tRows c (1 / 2) (bs * (1 / 2)) s) := by
    intro c
    unfold tRows
    simp only []
    rw [putRowE_emb c 0 _ (-s.arr1 0 + (1 / 2) * s.arr2 1 + 2 * (bs * (1 / 2)) * s.arr2 0) _ _
      (by field_simp; ring) rfl]
    rw [putRowE_emb c 1 _ (-s.arr1 1 + (1 / 2) * (2 * s.arr2 0 + s.arr2 2)
      + 2 * (bs * (1 / 2)) * s.arr2 1) _ _ (by field_simp; ring) rfl]
    rw [← apply_ite emb]
    rw [foldl_putRowE c _ (fun i => -s.arr1 i + (1 / 2) * (s.arr2 (i - 1) + s.arr2 (i + 1))
      + 2 * (bs * (1 / 2)) * s.arr2 i) (fun _ => 0) _ _ (fun i => by field_simp; ring) (fun _ => rfl)]
    refine putRowE_emb c _ _ _ _ _ ?_ rfl
    split <;> field_simp <;> ring
  unfold eStepSplit
  simp only [twoSum_eq, EState.ofT, mul_zero, add_zero, neg_zero, zero_div]
  rw [show (s.arr3, (fun _ => (0 : K)), s.out) = emb (s.arr3, s.out) from rfl]
  simp only [hr, h]
  simp only [fStep, emb]
  congr 1
  rw [div_eq_inv_mul, one_div]

end Reduce

section Loop

variable {K : Type*} [Field K] [LinearOrder K]
variable {V : Type*} [AddCommGroup V] [Module K V]

/-- State of the error-free variant after processing columns `0 .. m+1`. -/
def fRun (thr : K) (coeffs : ℕ → V) (α β : K) (m : ℕ) : TState K V :=
  (List.range' 2 m).foldl (fStep thr coeffs α β) (tInit coeffs α β)

theorem foldl_ofT (f : EState K V → ℕ → EState K V) (g : TState K V → ℕ → TState K V)
    (hfg : ∀ s c, f (EState.ofT s) c = EState.ofT (g s c)) (l : List ℕ) (s : TState K V) :
    l.foldl f (EState.ofT s) = EState.ofT (l.foldl g s) := by
  induction l generalizing s with
  | nil => rfl
  | cons a l ih => rw [List.foldl_cons, hfg, ih]; rfl

/-- The error-free transformation in terms of `fRun`. -/
theorem transform1DErrorFree_eq [IsStrictOrderedRing K] (thr : K) (coeffs : ℕ → V) (N : ℕ) (α β : K) :
    transform1DErrorFree thr coeffs N α β
      = ((fRun thr coeffs α β (N - 2)).out, (fRun thr coeffs α β (N - 2)).maxRow) := by
  have hi : ∀ α β, (eInit coeffs α β : EState K V) = EState.ofT (tInit coeffs α β) := fun _ _ => rfl
  unfold transform1DErrorFree
  split
  · rename_i h
    obtain ⟨ha, hb⟩ := h
    have hsgn : npSign β * (1 / 2) = β := by
      unfold npSign
      have h2 : (0 : K) < 1 / 2 := by positivity
      split
      · rename_i h; rw [abs_of_neg h] at hb; rw [← hb]; ring
      · split
        · rename_i h h'; rw [h', abs_zero] at hb; exact absurd hb h2.ne
        · rename_i h h'; rw [abs_of_nonneg (not_lt.1 h)] at hb; rw [← hb]; ring
    unfold transform1DErrorFreeSplit
    simp only []
    rw [hi, foldl_ofT _ _ (eStepSplit_ofT thr coeffs (npSign β)), hsgn, ha]
    rfl
  · simp only []
    rw [hi, foldl_ofT _ _ (eStep_ofT thr coeffs α β)]
    rfl

theorem fRun_zero (thr : K) (coeffs : ℕ → V) (α β : K) :
    fRun thr coeffs α β 0 = tInit coeffs α β := rfl

theorem fRun_succ (thr : K) (coeffs : ℕ → V) (α β : K) (m : ℕ) :
    fRun thr coeffs α β (m + 1) = fStep thr coeffs α β (fRun thr coeffs α β m) (m + 2) := by
  simp only [fRun, List.range'_1_concat, List.foldl_append, List.foldl_cons, List.foldl_nil]
  rw [Nat.add_comm 2 m]

/-- Buffers vanish beyond row `maxRow`. -/
structure FSupp (s : TState K V) : Prop where
  two_le : 2 ≤ s.maxRow
  z1 : ∀ i, s.maxRow < i → s.arr1 i = 0
  z2 : ∀ i, s.maxRow < i → s.arr2 i = 0
  z3 : ∀ i, s.maxRow < i → s.arr3 i = 0
  zo : ∀ i, s.maxRow < i → s.out i = 0

theorem FSupp.init (coeffs : ℕ → V) (α β : K) : FSupp (tInit coeffs α β) :=
  have h := TSupp.init coeffs α β
  ⟨h.two_le, fun i hi => h.z1 i hi.le, fun i hi => h.z2 i hi.le, fun i hi => h.z3 i hi.le,
    fun i hi => h.zo i hi.le⟩

theorem trunc_apply_lt {R i : ℕ} (h : i < R) (a : ℕ → K) : trunc R a i = a i := by simp [trunc, h]
theorem trunc_apply_ge {R i : ℕ} (h : R ≤ i) (a : ℕ → K) : trunc R a i = 0 := by
  simp [trunc, not_lt.2 h]

theorem mulX_trunc_top {R : ℕ} (h : 2 ≤ R) (a : ℕ → K) : mulX (trunc R a) R = a (R - 1) := by
  rw [mulX_of_two_le _ h, trunc_apply_lt (by omega), trunc_apply_ge (by omega)]; simp

theorem mulX_trunc_gt {R i : ℕ} (h : 2 ≤ R) (hi : R < i) (a : ℕ → K) : mulX (trunc R a) i = 0 := by
  rw [mulX_of_two_le _ (by omega), trunc_apply_ge (by omega), trunc_apply_ge (by omega)]; simp

theorem fStep_spec (thr : K) (coeffs : ℕ → V) (α β : K) (s : TState K V) (col : ℕ) (hs : FSupp s) :
    (∀ i, (fStep thr coeffs α β s col).arr2 i
      = -trunc s.maxRow s.arr1 i + α * mulX (trunc s.maxRow s.arr2) i
        + 2 * β * trunc s.maxRow s.arr2 i) ∧
    (∀ i, (fStep thr coeffs α β s col).out i
      = s.out i + (fStep thr coeffs α β s col).arr2 i • coeffs col) ∧
    ((fStep thr coeffs α β s col).maxRow = s.maxRow + 1 ∨
      ((fStep thr coeffs α β s col).maxRow = s.maxRow ∧
        |(fStep thr coeffs α β s col).arr2 s.maxRow| ≤ thr)) := by
  have hR := hs.two_le
  refine ⟨?_, ?_, ?_⟩
  · intro i
    simp only [fStep, tRows_eq _ α β s hR, putRow]
    by_cases hi : i = s.maxRow
    · subst hi
      simp [trunc_apply_ge le_rfl, mulX_trunc_top hR]
    · rw [Function.update_of_ne hi]
      by_cases hlt : i < s.maxRow
      · simp [hlt, rowVal, trunc_apply_lt hlt]
      · have h2 : s.maxRow < i := by omega
        simp [hlt, hs.z3 i h2, trunc_apply_ge h2.le, mulX_trunc_gt hR h2]
  · intro i
    simp only [fStep, tRows_eq _ α β s hR, putRow]
    by_cases hi : i = s.maxRow
    · subst hi; simp
    · rw [Function.update_of_ne hi, Function.update_of_ne hi]
      by_cases hlt : i < s.maxRow
      · simp [hlt]
      · have h2 : s.maxRow < i := by omega
        simp [hlt, hs.z3 i h2]
  · simp only [fStep, putRow, Function.update_self]
    split
    · left; rfl
    · rename_i h; right; exact ⟨rfl, not_lt.1 h⟩

theorem fStep_arr1 (thr : K) (coeffs : ℕ → V) (α β : K) (s : TState K V) (col : ℕ) :
    (fStep thr coeffs α β s col).arr1 = s.arr2 := rfl

theorem fStep_arr3 (thr : K) (coeffs : ℕ → V) (α β : K) (s : TState K V) (col : ℕ) :
    (fStep thr coeffs α β s col).arr3 = s.arr1 := rfl

theorem fStep_arr2_gt (thr : K) (coeffs : ℕ → V) (α β : K) (s : TState K V) (col : ℕ)
    (hs : FSupp s) (i : ℕ) (hi : s.maxRow < i) : (fStep thr coeffs α β s col).arr2 i = 0 := by
  rw [(fStep_spec thr coeffs α β s col hs).1, trunc_apply_ge hi.le, trunc_apply_ge hi.le,
    mulX_trunc_gt hs.two_le hi]; simp

theorem FSupp.step (thr : K) (coeffs : ℕ → V) (α β : K) (s : TState K V) (col : ℕ)
    (hs : FSupp s) : FSupp (fStep thr coeffs α β s col) := by
  obtain ⟨ha, ho, hm⟩ := fStep_spec thr coeffs α β s col hs
  have hge : s.maxRow ≤ (fStep thr coeffs α β s col).maxRow := by
    rcases hm with h | h <;> omega
  have h2 := hs.two_le
  refine ⟨by omega, fun i hi => hs.z2 i (by omega), ?_, fun i hi => hs.z1 i (by omega), ?_⟩
  · intro i hi; exact fStep_arr2_gt _ _ _ _ _ _ hs _ (by omega)
  · intro i hi
    rw [ho, hs.zo i (by omega), fStep_arr2_gt _ _ _ _ _ _ hs _ (by omega)]; simp

theorem fRun_supp (thr : K) (coeffs : ℕ → V) (α β : K) (m : ℕ) :
    FSupp (fRun thr coeffs α β m) := by
  induction m with
  | zero => exact FSupp.init coeffs α β
  | succ m ih => rw [fRun_succ]; exact ih.step thr coeffs α β _ _

theorem fRun_maxRow_le (thr : K) (coeffs : ℕ → V) (α β : K) (m : ℕ) :
    (fRun thr coeffs α β m).maxRow ≤ m + 2 := by
  induction m with
  | zero => simp [fRun_zero, tInit]
  | succ m ih =>
    rw [fRun_succ]
    obtain ⟨-, -, hm⟩ := fStep_spec thr coeffs α β (fRun thr coeffs α β m) (m + 2)
      (fRun_supp thr coeffs α β m)
    rcases hm with h | h <;> omega

/-- Value of a truncated buffer. -/
theorem colEval_trunc (R S : ℕ) (a : ℕ → K) (x : K) (hS : S < R) (ha : ∀ i, S < i → a i = 0) :
    colEval R (trunc S a) x = colEval R a x - a S * chebT S x := by
  rw [eq_sub_iff_add_eq]
  have : a S * chebT S x = ∑ i ∈ range R, (if i = S then a S else 0) * chebT i x := by
    rw [Finset.sum_eq_single S]
    · simp
    · intro b _ hb; simp [hb]
    · intro h; simp at h; omega
  unfold colEval
  rw [this, ← Finset.sum_add_distrib]
  apply Finset.sum_congr rfl
  intro i _
  rcases lt_trichotomy i S with h | h | h
  · simp [trunc_apply_lt h, h.ne]
  · subst h; simp [trunc_apply_ge le_rfl]
  · simp [trunc_apply_ge h.le, ha i h, h.ne']

theorem fStep_colEval (thr : K) (coeffs : ℕ → V) (α β : K) (s : TState K V) (col : ℕ)
    (hs : FSupp s) (R : ℕ) (hR : s.maxRow ≤ R) (x : K) :
    colEval (R + 1) (fStep thr coeffs α β s col).arr2 x
      = 2 * (α * x + β) * (colEval (R + 1) s.arr2 x - s.arr2 s.maxRow * chebT s.maxRow x)
        - (colEval (R + 1) s.arr1 x - s.arr1 s.maxRow * chebT s.maxRow x) := by
  have ha := (fStep_spec thr coeffs α β s col hs).1
  have h2 := hs.two_le
  obtain ⟨R', rfl⟩ : ∃ R', R = R' + 1 := ⟨R - 1, by omega⟩
  have e1 : colEval (R' + 1 + 1) (fStep thr coeffs α β s col).arr2 x
      = colEval (R' + 2) (fun i => -trunc s.maxRow s.arr1 i + α * mulX (trunc s.maxRow s.arr2) i
        + (2 * β) * trunc s.maxRow s.arr2 i) x := by
    congr 1; funext i; exact ha i
  rw [e1, colEval_lin (r := 0), colEval_mulX _ x R' (fun i hi => trunc_apply_ge (by omega) _),
    colEval_trunc _ _ _ _ (by omega) hs.z1, colEval_trunc _ _ _ _ (by omega) hs.z2]
  ring

theorem fRun_out_succ (thr : K) (coeffs : ℕ → V) (α β : K) (m R : ℕ) (x : K) :
    outEval R (fRun thr coeffs α β (m + 1)).out x
      = outEval R (fRun thr coeffs α β m).out x
        + colEval R (fRun thr coeffs α β (m + 1)).arr2 x • coeffs (m + 2) := by
  rw [← outEval_add_smul]
  congr 1
  funext i
  rw [fRun_succ]
  exact (fStep_spec thr coeffs α β (fRun thr coeffs α β m) (m + 2)
    (fRun_supp thr coeffs α β m)).2.1 i

theorem fRun_exact (thr : K) (coeffs : ℕ → V) (α β : K) (R : ℕ) (x : K) (m : ℕ) (hmR : m + 3 ≤ R)
    (hm : (fRun thr coeffs α β m).maxRow = m + 2) :
    ((fRun thr coeffs α β m).arr1 (m + 2) = 0 ∧ (fRun thr coeffs α β m).arr2 (m + 2) = 0 ∧
      (fRun thr coeffs α β m).out (m + 2) = 0) ∧
    colEval R (fRun thr coeffs α β m).arr1 x = chebT m (α * x + β) ∧
    colEval R (fRun thr coeffs α β m).arr2 x = chebT (m + 1) (α * x + β) ∧
    outEval R (fRun thr coeffs α β m).out x
      = ∑ c ∈ range (m + 2), chebT c (α * x + β) • coeffs c := by
  induction m with
  | zero =>
    rw [fRun_zero, tInit_colEval1 _ _ _ _ (by omega), tInit_colEval2 _ _ _ _ (by omega),
      tInit_outEval _ _ _ _ (by omega)]
    simp [Finset.sum_range_succ, tInit]
  | succ m ih =>
    have hle := fRun_maxRow_le thr coeffs α β m
    have hsupp := fRun_supp thr coeffs α β m
    obtain ⟨R', rfl⟩ : ∃ R', R = R' + 1 := ⟨R - 1, by omega⟩
    obtain ⟨-, ho, hmr⟩ := fStep_spec thr coeffs α β (fRun thr coeffs α β m) (m + 2) hsupp
    have hm' := hm
    rw [fRun_succ] at hm'
    have h0 : (fRun thr coeffs α β m).maxRow = m + 2 := by
      rcases hmr with h | h
      · omega
      · exfalso; omega
    obtain ⟨⟨z1, z2, z3⟩, i1, i2, i3⟩ := ih (by omega) h0
    have hc := fStep_colEval thr coeffs α β (fRun thr coeffs α β m) (m + 2) hsupp R' (by omega) x
    rw [h0, z1, z2] at hc
    have e2 : colEval (R' + 1) (fRun thr coeffs α β (m + 1)).arr2 x
        = chebT (m + 1 + 1) (α * x + β) := by
      rw [fRun_succ, hc, i1, i2, show m + 1 + 1 = m + 2 from rfl, chebT_add_two m (α * x + β)]; ring
    have e3 : (fRun thr coeffs α β (m + 1)).arr2 (m + 1 + 2) = 0 := by
      rw [fRun_succ]; exact fStep_arr2_gt _ _ _ _ _ _ hsupp _ (by omega)
    refine ⟨⟨?_, e3, ?_⟩, ?_, e2, ?_⟩
    · rw [fRun_succ, fStep_arr1]; exact hsupp.z2 _ (by omega)
    · rw [fRun_succ, ho, hsupp.zo _ (by omega), ← fRun_succ, e3]; simp
    · rw [fRun_succ, fStep_arr1]; exact i2
    · rw [fRun_out_succ, i3, e2, Finset.sum_range_succ (n := m + 2)]

end Loop

section Bound

variable {K : Type*} [Field K] [LinearOrder K] [IsStrictOrderedRing K]
variable {V : Type*} [AddCommGroup V] [Module K V]

theorem fRun_bound {thr : K} (hthr : 0 ≤ thr) (coeffs : ℕ → V) (α β : K) (R : ℕ) {x : K}
    (hx : |x| ≤ 1) (hy : |α * x + β| ≤ 1) (L : V →ₗ[K] K) (m : ℕ) (hmR : m + 3 ≤ R) :
    (|(fRun thr coeffs α β m).arr1 (fRun thr coeffs α β m).maxRow| ≤ thr ∧
      |(fRun thr coeffs α β m).arr2 (fRun thr coeffs α β m).maxRow| ≤ thr ∧
      |L ((fRun thr coeffs α β m).out (fRun thr coeffs α β m).maxRow)|
        ≤ thr * ∑ c ∈ range (m + 2), |L (coeffs c)|) ∧
    (∀ k, |chebU k (α * x + β) *
        (chebT (m + 1) (α * x + β) - colEval R (fRun thr coeffs α β m).arr2 x)
      - chebU' k (α * x + β) *
        (chebT m (α * x + β) - colEval R (fRun thr coeffs α β m).arr1 x)| ≤ errB (3 * thr) m k) ∧
    |∑ c ∈ range (m + 2), chebT c (α * x + β) * L (coeffs c)
        - L (outEval R (fRun thr coeffs α β m).out x)|
      ≤ 3 * thr * (m * (m + 1) / 2) * ∑ c ∈ range (m + 2), |L (coeffs c)| := by
  induction m with
  | zero =>
    rw [fRun_zero, tInit_colEval1 _ _ _ _ (by omega), tInit_colEval2 _ _ _ _ (by omega),
      tInit_outEval _ _ _ _ (by omega)]
    refine ⟨⟨?_, ?_, ?_⟩, ?_, ?_⟩
    · simp [tInit, hthr]
    · simp [tInit, hthr]
    · simp only [tInit]
      simp
      positivity
    · intro k; simp [errB]
    · simp [Finset.sum_range_succ]
  | succ m ih =>
    have hle := fRun_maxRow_le thr coeffs α β m
    have hsupp := fRun_supp thr coeffs α β m
    obtain ⟨R', rfl⟩ : ∃ R', R = R' + 1 := ⟨R - 1, by omega⟩
    obtain ⟨-, ho, hmr⟩ := fStep_spec thr coeffs α β (fRun thr coeffs α β m) (m + 2) hsupp
    have hc := fStep_colEval thr coeffs α β (fRun thr coeffs α β m) (m + 2) hsupp R' (by omega) x
    obtain ⟨⟨b1, b2, b3⟩, i1, i2⟩ := ih (by omega)
    set s := fRun thr coeffs α β m with hsdef
    have hT := abs_chebT_le_one s.maxRow hx
    have hd : |2 * (α * x + β) * (s.arr2 s.maxRow * chebT s.maxRow x)
        - s.arr1 s.maxRow * chebT s.maxRow x| ≤ 3 * thr := by
      refine (abs_sub _ _).trans ?_
      have h1 : |s.arr2 s.maxRow * chebT s.maxRow x| ≤ thr * 1 := by
        rw [abs_mul]; exact mul_le_mul b2 hT (abs_nonneg _) hthr
      have h2 : |s.arr1 s.maxRow * chebT s.maxRow x| ≤ thr * 1 := by
        rw [abs_mul]; exact mul_le_mul b1 hT (abs_nonneg _) hthr
      have h3 : |2 * (α * x + β) * (s.arr2 s.maxRow * chebT s.maxRow x)| ≤ 2 * (thr * 1) := by
        rw [abs_mul]
        apply mul_le_mul _ h1 (abs_nonneg _) (by norm_num)
        rw [abs_mul, abs_two]; linarith
      linarith
    have hstep := err_step (e2 := chebT (m + 1 + 1) (α * x + β)
      - colEval (R' + 1) (fRun thr coeffs α β (m + 1)).arr2 x) hy i1
      (by rw [fRun_succ, hc, chebT_add_two]; ring) hd
    refine ⟨?_, ?_, ?_⟩
    · rw [fRun_succ]
      rw [fStep_arr1]
      rcases hmr with h | h
      · rw [h]
        have z2 : (fStep thr coeffs α β s (m + 2)).arr2 (s.maxRow + 1) = 0 :=
          fStep_arr2_gt _ _ _ _ _ _ hsupp _ (by omega)
        refine ⟨?_, ?_, ?_⟩
        · rw [hsupp.z2 _ (by omega)]; simpa using hthr
        · rw [z2]; simpa using hthr
        · rw [ho, z2, hsupp.zo _ (by omega)]
          simp only [zero_smul, add_zero, map_zero, abs_zero]
          positivity
      · rw [h.1]
        refine ⟨b2, h.2, ?_⟩
        rw [ho, map_add, map_smul, smul_eq_mul, Finset.sum_range_succ (n := m + 2), mul_add]
        refine (abs_add_le _ _).trans (add_le_add b3 ?_)
        rw [abs_mul]
        exact mul_le_mul_of_nonneg_right h.2 (abs_nonneg _)
    · rw [fRun_succ, fStep_arr1, ← fRun_succ]; exact hstep
    · have he := err_zero hstep
      rw [fRun_out_succ, Finset.sum_range_succ (n := m + 2), Finset.sum_range_succ (n := m + 2),
        map_add, map_smul, smul_eq_mul]
      have split : ∀ a b c d e : K, a + b * c - (d + e * c) = (a - d) + (b - e) * c := by
        intros; ring
      rw [split]
      refine (abs_add_le _ _).trans ?_
      rw [abs_mul]
      have hS : 0 ≤ ∑ c ∈ range (m + 2), |L (coeffs c)| := Finset.sum_nonneg fun _ _ => abs_nonneg _
      have h1 := mul_le_mul_of_nonneg_right he (abs_nonneg (L (coeffs (m + 2))))
      have h2 : 3 * thr * (m * (m + 1) / 2 : K) * ∑ c ∈ range (m + 2), |L (coeffs c)|
          ≤ 3 * thr * (((m + 1 : ℕ) : K) * (((m + 1 : ℕ) : K) + 1) / 2)
            * ∑ c ∈ range (m + 2), |L (coeffs c)| := by
        apply mul_le_mul_of_nonneg_right _ hS
        apply mul_le_mul_of_nonneg_left _ (by positivity)
        push_cast
        have : (0 : K) ≤ m := Nat.cast_nonneg m
        nlinarith
      calc _ ≤ _ := add_le_add (i2.trans h2) h1
        _ = _ := by ring

end Bound

end YRoots
