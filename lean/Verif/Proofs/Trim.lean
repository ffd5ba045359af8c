import Verif.Proofs.Zoom

/-!
# Helper lemmas: trimming
-/

set_option linter.unusedSectionVars false
set_option linter.unusedVariables false

namespace YRoots

open Finset

variable {n : ℕ} {K : Type*} [Field K] [LinearOrder K] [IsStrictOrderedRing K]

theorem dropLast_idx {K : Type*} (M : Tensor n K) (d : Fin n) (h : 0 < M.shape d) :
    (M.dropLast d).idx = M.idx.filter (fun k => ¬ k d = M.shape d - 1) := by
  ext k
  simp only [Tensor.idx, Tensor.dropLast, Fintype.mem_piFinset, mem_range, mem_filter]
  constructor
  · intro hk
    have hd := hk d
    rw [Function.update_self] at hd
    refine ⟨fun i => ?_, by omega⟩
    by_cases hi : i = d
    · subst hi; omega
    · have := hk i; rwa [Function.update_of_ne hi] at this
  · rintro ⟨hk, hd⟩ i
    by_cases hi : i = d
    · subst hi; rw [Function.update_self]; have := hk i; omega
    · rw [Function.update_of_ne hi]; exact hk i

theorem lastSum_nonneg (M : Tensor n K) (d : Fin n) : 0 ≤ M.lastSum d :=
  sum_nonneg fun _ _ => abs_nonneg _

theorem dropLast_eval_bound (M : Tensor n K) (d : Fin n) (h : 0 < M.shape d) {x : Fin n → K}
    (hx : InCube x) : |M.eval x - (M.dropLast d).eval x| ≤ M.lastSum d := by
  unfold Tensor.eval Tensor.lastSum
  rw [dropLast_idx M d h, ← sum_filter_add_sum_filter_not M.idx (fun k => k d = M.shape d - 1)]
  show |_ + _ - ∑ k ∈ M.idx.filter (fun k => ¬ k d = M.shape d - 1), M.coef k * _| ≤ _
  rw [add_sub_cancel_right]
  refine (abs_sum_le_sum_abs _ _).trans (sum_le_sum fun k _ => ?_)
  rw [abs_mul]
  calc _ ≤ |M.coef k| * 1 := mul_le_mul_of_nonneg_left (prod_chebT_abs_le k hx) (abs_nonneg _)
    _ = _ := mul_one _

/-- Relation between the states before and after (part of) the trimming of one polynomial. -/
structure Trimmed (s s' : TrimState n K) : Prop where
  coef : s'.M.coef = s.M.coef
  shape_le : ∀ i, s'.M.shape i ≤ s.M.shape i
  three : ∀ i, s'.M.shape i = s.M.shape i ∨ 3 ≤ s'.M.shape i
  budget : s'.err - s.err = s.allowed - s'.allowed
  mono : s.err ≤ s'.err
  strict : s' = s ∨ 0 < s'.allowed
  bound : (∀ i, 0 < s.M.shape i) → ∀ x, InCube x → |s.M.eval x - s'.M.eval x| ≤ s'.err - s.err

theorem Trimmed.refl (s : TrimState n K) : Trimmed s s :=
  ⟨rfl, fun _ => le_rfl, fun _ => .inl rfl, by ring, le_rfl, .inl rfl, fun _ x _ => by simp⟩

theorem Trimmed.trans {s t u : TrimState n K} (h : Trimmed s t) (h' : Trimmed t u) : Trimmed s u where
  coef := h'.coef.trans h.coef
  shape_le i := (h'.shape_le i).trans (h.shape_le i)
  three i := by
    rcases h'.three i with h1 | h1
    · rw [h1]; exact h.three i
    · exact .inr h1
  budget := by have := h.budget; have := h'.budget; linarith
  mono := h.mono.trans h'.mono
  strict := by
    rcases h'.strict with h1 | h1
    · rw [h1]; exact h.strict
    · exact .inr h1
  bound hs x hx := by
    have ht : ∀ i, 0 < t.M.shape i := by
      intro i
      rcases h.three i with h1 | h1
      · rw [h1]; exact hs i
      · omega
    have h1 := h.bound hs x hx
    have h2 := h'.bound ht x hx
    have := abs_sub_le (s.M.eval x) (t.M.eval x) (u.M.eval x)
    linarith

theorem trimAxis_induct (d : Fin n) {P : TrimState n K → Prop}
    (step : ∀ s, s.M.lastSum d < s.allowed ∧ 3 < s.M.shape d →
      P ⟨s.M.dropLast d, s.allowed - s.M.lastSum d, s.err + s.M.lastSum d⟩ → P s)
    (stop : ∀ s, ¬ (s.M.lastSum d < s.allowed ∧ 3 < s.M.shape d) → P s) (s : TrimState n K) : P s := by
  induction hm : s.M.shape d using Nat.strong_induction_on generalizing s with
  | _ m ih =>
    by_cases h : s.M.lastSum d < s.allowed ∧ 3 < s.M.shape d
    · apply step s h
      refine ih (m - 1) (by omega) _ ?_
      simp only [Tensor.dropLast, Function.update_self]
      omega
    · exact stop s h

theorem trimAxis_trimmed (d : Fin n) (s : TrimState n K) : Trimmed s (trimAxis d s) := by
  refine trimAxis_induct (P := fun s => Trimmed s (trimAxis d s)) d ?_ ?_ s
  · intro s h ih
    rw [trimAxis, dif_pos h]
    refine Trimmed.trans ?_ ih
    refine ⟨rfl, ?_, ?_, by simp, ?_, ?_, ?_⟩
    · intro i
      simp only [Tensor.dropLast]
      by_cases hi : i = d
      · subst hi; rw [Function.update_self]; omega
      · rw [Function.update_of_ne hi]
    · intro i
      simp only [Tensor.dropLast]
      by_cases hi : i = d
      · subst hi; rw [Function.update_self]; right; have := h.2; omega
      · rw [Function.update_of_ne hi]; exact .inl rfl
    · have := lastSum_nonneg s.M d; simp only; linarith
    · right; simp only; linarith [h.1]
    · intro hs x hx
      have := dropLast_eval_bound s.M d (hs d) hx
      simp only; linarith
  · intro s h
    rw [trimAxis, dif_neg h]
    exact Trimmed.refl s

theorem trimFold_trimmed (l : List (Fin n)) (s : TrimState n K) :
    Trimmed s (l.foldl (fun s d => trimAxis d s) s) := by
  induction l generalizing s with
  | nil => exact Trimmed.refl s
  | cons d l ih => exact (trimAxis_trimmed d s).trans (ih _)

theorem trimPoly_trimmed (M : Tensor n K) (e r a : K) :
    Trimmed ⟨M, a + e * r, e⟩ (trimPoly M e r a) := trimFold_trimmed _ _

theorem trimMs_fits {N : ℕ} {Ms : Fin n → Tensor n K} (h : Fits N Ms) (errors : Fin n → K) (r a : K) :
    Fits N (trimMs Ms errors r a).1 := by
  intro i j
  have ht := trimPoly_trimmed (Ms i) (errors i) r a
  refine ⟨?_, (ht.shape_le j).trans (h i j).2⟩
  rcases ht.three j with h1 | h1
  · show 0 < (trimPoly (Ms i) (errors i) r a).M.shape j
    rw [h1]; exact (h i j).1
  · show 0 < (trimPoly (Ms i) (errors i) r a).M.shape j
    omega

theorem StrictApprox.trim {N : ℕ} {F : Fin n → (Fin n → K) → K} {Ms : Fin n → Tensor n K}
    {errors : Fin n → K} {B : Box n K} (hM : Fits N Ms) (h : StrictApprox F Ms errors B) (r a : K) :
    StrictApprox F (trimMs Ms errors r a).1 (trimMs Ms errors r a).2 B := by
  intro i x hx
  have h1 := h i x hx
  have h2 := (trimPoly_trimmed (Ms i) (errors i) r a).bound (fun j => (hM i j).1) x hx
  have h3 := abs_sub_le (F i (B.map x)) ((Ms i).eval x) ((trimPoly (Ms i) (errors i) r a).M.eval x)
  simp only at h2
  show |F i (B.map x) - (trimPoly (Ms i) (errors i) r a).M.eval x| < (trimPoly (Ms i) (errors i) r a).err
  linarith

theorem trimMs_errors_le (Ms : Fin n → Tensor n K) (errors : Fin n → K) (r a : K) (i : Fin n) :
    errors i ≤ (trimMs Ms errors r a).2 i := (trimPoly_trimmed (Ms i) (errors i) r a).mono

end YRoots
