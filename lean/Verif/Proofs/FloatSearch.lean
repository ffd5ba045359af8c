import Verif.Model.FloatSearch
import Verif.Proofs.Subdivide
import Verif.Proofs.FloatIter

/-!
# Lemmas on subdivision in floating-point arithmetic
-/

set_option linter.unusedSectionVars false

namespace YRoots

open Finset

section Dims

variable {n : ℕ} {K : Type*} [Field K] [LinearOrder K] [IsStrictOrderedRing K]

theorem considerDimsF_nodup (fl : K → K) (hn : 0 < n) (B : Box n K) : (considerDimsF fl B).Nodup := by
  have e : considerDimsF fl B = (List.finRange n).foldl (fun ds i => if npIscloseF fl (B.lo i) (B.hi i) = true ∧ ds.length ≠ 1 then ds.erase i else ds)
      (List.finRange n) := by
    unfold considerDimsF
    congr 1
    funext ds i
    by_cases h1 : npIscloseF fl (B.lo i) (B.hi i) = true <;> by_cases h2 : ds.length ≠ 1 <;> simp [h1, h2]
  rw [e]
  exact (foldl_erase_keep (fun ds i => npIscloseF fl (B.lo i) (B.hi i) = true ∧ ds.length ≠ 1) (List.finRange n)
    (List.finRange n) (fun _ _ h => h.2) (List.nodup_finRange n) (by intro h; have := congrArg List.length h; simp at this; omega)).1

/-- The dimensions in which all polynomials are split. -/
def subDimsF (fl : K → K) (Ms : Fin n → Tensor n K) (ti : TrackedInterval n K) (level : ℕ) : List (Fin n) :=
  if level > 5 then considerDimsF fl ti.interval else degreeDims Ms (longDimsF fl ti.interval (considerDimsF fl ti.interval))

theorem getSubdivisionDimsF_perm (fl : K → K) {argsort : List ℕ → List ℕ} (ha : ArgsortOK argsort) (Ms : Fin n → Tensor n K)
    (ti : TrackedInterval n K) (level : ℕ) (i : Fin n) : (getSubdivisionDimsF fl argsort Ms ti level i).Perm (subDimsF fl Ms ti level) :=
  sortDims_perm ha _ _

theorem subDimsF_nodup (fl : K → K) (hn : 0 < n) (Ms : Fin n → Tensor n K) (ti : TrackedInterval n K) (level : ℕ) :
    (subDimsF fl Ms ti level).Nodup := by
  unfold subDimsF
  have h := considerDimsF_nodup fl hn ti.interval
  split_ifs
  · exact h
  · exact (degreeDims_spec Ms _ (h.filter _)).1

theorem biUnion_ordersF (fl : K → K) {argsort : List ℕ → List ℕ} (ha : ArgsortOK argsort) (hn : 0 < n) (Ms : Fin n → Tensor n K)
    (ti : TrackedInterval n K) (level : ℕ) :
    (Finset.univ.biUnion fun i => (getSubdivisionDimsF fl argsort Ms ti level i).toFinset) = (subDimsF fl Ms ti level).toFinset := by
  ext d
  simp only [Finset.mem_biUnion, Finset.mem_univ, true_and, List.mem_toFinset]
  constructor
  · rintro ⟨i, hi⟩; exact (getSubdivisionDimsF_perm fl ha Ms ti level i).mem_iff.1 hi
  · intro h; exact ⟨⟨0, hn⟩, (getSubdivisionDimsF_perm fl ha Ms ti level _).mem_iff.2 h⟩

end Dims

/-- As `splitAll_forall₂`, with a relation that depends on the number of halvings. -/
theorem splitAll_forall₂_count {A B D : Type*} {R : ℕ → A → B → Prop} {f : D → Bool → A → A} {g : D → Bool → B → B}
    (h : ∀ k d b x y, R k x y → R (k + 1) (f d b x) (g d b y)) (dims : List D) : ∀ (k : ℕ) (l : List A) (m : List B),
    List.Forall₂ (R k) l m → List.Forall₂ (R (k + dims.length)) (splitAll f dims l) (splitAll g dims m) := by
  unfold splitAll
  induction dims with
  | nil => exact fun _ _ _ hl => hl
  | cons d ds ih =>
    intro k l m hl
    rw [List.foldl_cons, List.foldl_cons, List.length_cons, show k + (ds.length + 1) = k + 1 + ds.length by ring]
    apply ih
    induction hl with
    | nil => exact .nil
    | cons hab _ ih' =>
      simp only [List.flatMap_cons]
      exact .cons (h _ _ false _ _ hab) (.cons (h _ _ true _ _ hab) ih')

section Children

variable {n : ℕ} {K : Type*} [Field K] [LinearOrder K] [IsStrictOrderedRing K]

theorem polyChildrenF_spec {ar : FloatArith K} {mid : Fin n → K} {R : ℕ → Tensor n K × K → Box n K → Prop} {M : Tensor n K} {e : K}
    (h0 : R 0 (M, e) (Box.unit n K)) (hR : ∀ k d b p S, R k p S → R (k + 1) (splitPolyF ar mid d b p) (halfBox mid d b S))
    (order dims : List (Fin n)) (hnd : dims.Nodup) (hp : order.Perm dims) {P : List (Tensor n K × K)} (hP : polyChildrenF ar mid M e order = .ok P) :
    List.Forall₂ (R dims.length) P (splitAll (halfBox mid) (dims.toFinset.sort (· ≤ ·)) [Box.unit n K]) := by
  have h := splitAll_forall₂_count (R := R) (f := splitPolyF ar mid) (g := halfBox mid) hR order 0 [(M, e)] [Box.unit n K] (.cons h0 .nil)
  rw [Nat.zero_add, hp.length_eq] at h
  have hnd' : order.Nodup := hp.nodup_iff.2 hnd
  have hfs : order.toFinset = dims.toFinset := by ext d; simp [hp.mem_iff]
  unfold polyChildrenF at hP
  by_cases hn : n = 1
  · simp only [if_pos hn] at hP
    cases hP
    have hlen : order.length ≤ 1 := by
      have := hnd'.length_le_card
      simpa [hn] using this
    have : dims.toFinset.sort (· ≤ ·) = order := by
      apply List.Perm.eq_of_pairwise (le := (· ≤ ·))
      · intro a b _ _ h1 h2; exact le_antisymm h1 h2
      · exact (Finset.pairwise_sort dims.toFinset (· ≤ ·)).imp fun h => h
      · match order, hlen with
        | [], _ => exact .nil
        | [a], _ => exact List.pairwise_singleton _ _
      · rw [← hfs]
        exact (Finset.sort_perm_toList order.toFinset (· ≤ ·)).trans (List.toFinset_toList hnd')
    rw [this]
    exact h
  · simp only [if_neg hn] at hP
    split at hP
    · cases hP
    · rw [← hfs]
      obtain ⟨s, hs, hr⟩ := forall₂_pick h _ (pick_inverse_fin (halfBox mid) (halfBox_comm mid) order hnd' (Box.unit n K))
      rw [hs] at hP
      cases hP
      exact hr

theorem mapM_ok_inv {A B : Type*} {f : A → Except Exc B} {l : List A} {r : List B} (h : l.mapM f = .ok r) : List.Forall₂ (fun a b => f a = .ok b) l r := by
  induction l generalizing r with
  | nil =>
    cases h
    exact .nil
  | cons a l ih =>
    rw [List.mapM_cons] at h
    cases ha : f a with
    | error e => rw [ha] at h; cases h
    | ok b =>
      cases hl : l.mapM f with
      | error e => rw [ha, hl] at h; cases h
      | ok bs =>
        rw [ha, hl] at h
        cases h
        exact .cons ha (ih hl)

/-- The children, if there is no exception, are aligned with the sub-boxes. -/
theorem getSubdivisionIntervalsF_spec {ar : FloatArith K} {argsort : List ℕ → List ℕ} (ha : ArgsortOK argsort) (hn : 0 < n)
    {Ms : Fin n → Tensor n K} {errors : Fin n → K} {ti : TrackedInterval n K} {level : ℕ}
    {R : Fin n → ℕ → Tensor n K × K → Box n K → Prop} (h0 : ∀ i, R i 0 (Ms i, errors i) (Box.unit n K))
    (hR : ∀ i k d b p S, R i k p S → R i (k + 1) (splitPolyF ar ti.nextTransformPoints d b p) (halfBox ti.nextTransformPoints d b S))
    {I : TrackedInterval n K → Box n K → Prop} (hI0 : I ti (Box.unit n K))
    (hI : ∀ d b t S, I t S → I (t.splitIntervalF ar.fl ti.nextTransformPoints d b) (halfBox ti.nextTransformPoints d b S))
    {cs : List (Child n K)} (hcs : getSubdivisionIntervalsF ar argsort (fun s => s.sort (· ≤ ·)) Ms errors ti level = .ok cs) :
    ∃ dims : List (Fin n), dims.length ≤ n ∧ List.Forall₂ (fun c S => I c.ti S ∧ ∀ i, R i dims.length (c.Ms i, c.errors i) S) cs
      (splitAll (halfBox ti.nextTransformPoints) (dims.toFinset.sort (· ≤ ·)) [Box.unit n K]) := by
  have hnd := subDimsF_nodup ar.fl hn Ms ti level
  have hp := getSubdivisionDimsF_perm ar.fl ha Ms ti level
  unfold getSubdivisionIntervalsF at hcs
  simp only [biUnion_ordersF ar.fl ha hn Ms ti level] at hcs
  have hcard : ¬ ∃ i, (subDimsF ar.fl Ms ti level).toFinset.card ≠ (getSubdivisionDimsF ar.fl argsort Ms ti level i).length := by
    rintro ⟨i, hi⟩
    exact hi (by rw [(hp i).length_eq, List.toFinset_card_of_nodup hnd])
  rw [if_neg hcard] at hcs
  refine ⟨subDimsF ar.fl Ms ti level, ?_, ?_⟩
  · have := hnd.length_le_card
    simpa using this
  cases hA : (List.finRange n).mapM fun i => polyChildrenF ar ti.nextTransformPoints (Ms i) (errors i) (getSubdivisionDimsF ar.fl argsort Ms ti level i) with
  | error e => rw [hA] at hcs; cases hcs
  | ok allP =>
    rw [hA] at hcs
    replace hcs : zipChildren allP _ = .ok cs := hcs
    have hA2 := mapM_ok_inv hA
    have hlenP : allP.length = n := by rw [← hA2.length_eq, List.length_finRange]
    have hget : ∀ i : Fin n, polyChildrenF ar ti.nextTransformPoints (Ms i) (errors i) (getSubdivisionDimsF ar.fl argsort Ms ti level i)
        = .ok (allP.getD i []) := by
      intro i
      have := List.Forall₂.get hA2 (i := i.1) (by simp) (by rw [hlenP]; exact i.2)
      rw [List.getD_eq_getElem?_getD, List.getElem?_eq_getElem (by rw [hlenP]; exact i.2)]
      simpa using this
    have hRP := fun i => polyChildrenF_spec (h0 i) (hR i) _ (subDimsF ar.fl Ms ti level) hnd (hp i) (hget i)
    set boxes := splitAll (halfBox ti.nextTransformPoints) ((subDimsF ar.fl Ms ti level).toFinset.sort (· ≤ ·)) [Box.unit n K] with hboxes
    have hI2 := splitAll_forall₂ (R := I) (f := TrackedInterval.splitIntervalF ar.fl ti.nextTransformPoints)
      (g := halfBox ti.nextTransformPoints) ((subDimsF ar.fl Ms ti level).toFinset.sort (· ≤ ·))
      (fun d _ b p S h => hI d b p S h) [ti] [Box.unit n K] (.cons hI0 .nil)
    rw [← hboxes] at hI2
    set tis := splitAll (TrackedInterval.splitIntervalF ar.fl ti.nextTransformPoints) ((subDimsF ar.fl Ms ti level).toFinset.sort (· ≤ ·)) [ti]
    have hlen : ∀ i : Fin n, (allP.getD i []).length = boxes.length := fun i => (hRP i).length_eq
    cases allP with
    | nil => simp at hlenP; omega
    | cons p0 rest =>
      have h0 : p0.length = boxes.length := by simpa using hlen ⟨0, hn⟩
      simp only [zipChildren] at hcs
      split at hcs
      · cases hcs
        have htake : tis.take p0.length = tis := by rw [h0, ← hI2.length_eq, List.take_length]
        rw [htake]
        apply forall₂_zipIdx (fun a j => (⟨fun i => (childPoly (p0 :: rest) i j).1,
          fun i => (childPoly (p0 :: rest) i j).2, a⟩ : Child n K)) 0 hI2
        intro j a S hj hr
        refine ⟨hr, fun i => ?_⟩
        have hjl : j < boxes.length := (List.getElem?_eq_some_iff.1 hj).1
        have hjl' : j < ((p0 :: rest).getD i []).length := by rw [hlen i]; exact hjl
        have hSe : boxes[j] = S := by
          rw [List.getElem?_eq_getElem hjl] at hj; exact Option.some.inj hj
        have := List.Forall₂.get (hRP i) hjl' hjl
        simp only [childPoly, Nat.zero_add]
        rw [List.getD_eq_getElem?_getD (l := (p0 :: rest).getD i []), List.getElem?_eq_getElem hjl']
        simp only [Option.getD_some]
        rw [← hSe]
        exact this
      · cases hcs

end Children

section Split

variable {n : ℕ} {ar : FloatArith ℝ} (hfl : RoundsToNearest 53 ar.fl) (hs : ar.Sums)

include hfl hs

/-- One half of one polynomial. -/
theorem splitPolyF_bound {mid : Fin n → ℝ} {d : Fin n} (fm : IsFloat 53 (mid d)) (hm : |mid d| ≤ 1) (b : Bool) (M : Tensor n ℝ) (hM : M.Nonempty)
    (hFl : ∀ k ∈ M.idx, IsFloat 53 (M.coef k)) (hsize : ∏ i, M.shape i ≤ 2 ^ 19) {N : ℕ} (hN : ∀ i, M.shape i ≤ N) {e : ℝ} (he : 0 ≤ e) :
    let p := splitPolyF ar mid d b (M, e)
    p.1.Nonempty ∧ (∀ i, p.1.shape i ≤ M.shape i) ∧ (∀ k ∈ p.1.idx, IsFloat 53 (p.1.coef k)) ∧
    ∃ g : ℝ, 0 ≤ g ∧ |p.2 - (e + g)| ≤ 1 / 2 ^ 29 * (e + g) ∧
      (∀ x, InCube x → |M.eval (Function.update x d
        (if b then (1 - mid d) / 2 * x d + (1 + mid d) / 2 else (mid d + 1) / 2 * x d + (mid d - 1) / 2)) - p.1.eval x| ≤ 21 * √(N : ℝ) ^ 3 * g) ∧
      ∀ B C : ℝ, 0 ≤ C → 2 ^ n * ((∏ i, M.shape i : ℕ) : ℝ) ≤ C ^ 2 → (∀ x, InCube x → |M.eval x| ≤ B) → g ≤ N * macheps * C * B := by
  intro p
  have f1 : IsFloat 53 (-1 : ℝ) := ⟨-1, 0, by norm_num, by norm_num⟩
  obtain ⟨c0, c1, c2, c3⟩ := transformPoints_close hfl f1 fm (by norm_num) hm
  have e1 : (getTransformPointsF ar.fl (-1) (mid d)).1 = ar.fl (ar.fl (mid d + 1) / 2) := by
    simp only [getTransformPointsF, sub_neg_eq_add]
  have e2 : (getTransformPointsF ar.fl (-1) (mid d)).2 = ar.fl (ar.fl (mid d - 1) / 2) := by
    simp only [getTransformPointsF, ← sub_eq_add_neg]
  rw [sub_neg_eq_add, ← sub_eq_add_neg] at c0 c3
  rw [sub_neg_eq_add, e1] at c1
  rw [← sub_eq_add_neg, e2] at c2
  rw [e1, e2] at c3
  obtain ⟨g1, g2⟩ := transformationErrorF_close hfl hs M hM hsize d
  have hg0 : 0 ≤ getTransformationError M d := by
    have hS : 0 ≤ M.absSum := Finset.sum_nonneg fun _ _ => abs_nonneg _
    unfold getTransformationError macheps
    positivity
  have hdN : M.shape d ≤ 2 ^ 19 := (Nat.le_of_dvd (prod_pos fun j _ => hM j) (dvd_prod_of_mem _ (mem_univ d))).trans hsize
  have b3 : 21 * √(M.shape d : ℝ) ^ 3 * getTransformationError M d ≤ 21 * √(N : ℝ) ^ 3 * getTransformationError M d := by
    apply mul_le_mul_of_nonneg_right _ hg0
    have : √(M.shape d : ℝ) ≤ √(N : ℝ) := Real.sqrt_le_sqrt (by exact_mod_cast hN d)
    have := pow_le_pow_left₀ (Real.sqrt_nonneg _) this 3
    linarith
  have herr : |p.2 - (e + getTransformationError M d)| ≤ 1 / 2 ^ 29 * (e + getTransformationError M d) := by
    have h1 := abs_le.1 (fl_rel' hfl (getTransformationErrorF ar M d + e))
    have h2 : 0 ≤ getTransformationErrorF ar M d := le_trans (mul_nonneg (by norm_num) hg0) g1
    rw [abs_of_nonneg (add_nonneg h2 he)] at h1
    show |ar.fl (getTransformationErrorF ar M d + e) - _| ≤ _
    rw [abs_le]
    constructor <;> linarith [h1.1, h1.2]
  have hgrow : ∀ B C : ℝ, 0 ≤ C → 2 ^ n * ((∏ i, M.shape i : ℕ) : ℝ) ≤ C ^ 2 → (∀ x, InCube x → |M.eval x| ≤ B) →
      getTransformationError M d ≤ N * macheps * C * B := by
    intro B C hC0 hC hMB
    have w2 := absSum_le_of_bound M hM hMB hC0 hC
    have w3 : (M.shape d : ℝ) ≤ N := by exact_mod_cast hN d
    have hm0 : (0 : ℝ) < macheps := by unfold macheps; positivity
    unfold getTransformationError
    calc _ ≤ (N : ℝ) * macheps * (C * B) :=
          mul_le_mul (mul_le_mul_of_nonneg_right w3 hm0.le) w2 (Finset.sum_nonneg fun _ _ => abs_nonneg _) (by positivity)
      _ = _ := by ring
  obtain ⟨α, hα⟩ : ∃ α, α = ar.fl (ar.fl (mid d + 1) / 2) := ⟨_, rfl⟩
  obtain ⟨β, hβ⟩ : ∃ β, β = ar.fl (ar.fl (mid d - 1) / 2) := ⟨_, rfl⟩
  rw [← hα] at c1
  rw [← hβ] at c2
  rw [← hα, ← hβ] at c3
  have key : ∀ a0 b0 as bs : ℝ, p.1 = transformNDF ar.fl M d a0 b0 → |as| + |bs| ≤ 1 → |a0 - as| ≤ 1 / 2 ^ 53 * |as| → |b0 - bs| ≤ 1 / 2 ^ 53 * |bs| →
      (a0 = 1 ∧ b0 = 0 → as = 1 ∧ bs = 0) → p.1.Nonempty ∧ (∀ i, p.1.shape i ≤ M.shape i) ∧ (∀ k ∈ p.1.idx, IsFloat 53 (p.1.coef k)) ∧
      ∀ x, InCube x → |M.eval (Function.update x d (as * x d + bs)) - p.1.eval x| ≤ 21 * √(N : ℝ) ^ 3 * getTransformationError M d := by
    intro a0 b0 as bs hp h1 h2 h3 h4
    rw [hp]
    obtain ⟨s1, s2⟩ := transformNDF_shape hfl M d hM a0 b0
    exact ⟨s1, s2, transformNDF_float hfl M d a0 b0 hFl, fun x hx => (axis_bound hfl M d (hM d) hdN h1 h2 h3 h4 x hx).trans b3⟩
  cases b with
  | false =>
    obtain ⟨k1, k2, k3, k4⟩ := key α β ((mid d + 1) / 2) ((mid d - 1) / 2) (by simp only [p, splitPolyF, hα, hβ]; rfl) c0 c1 c2 c3
    exact ⟨k1, k2, k3, _, hg0, herr, k4, hgrow⟩
  | true =>
    obtain ⟨k1, k2, k3, k4⟩ := key (-β) α ((1 - mid d) / 2) ((1 + mid d) / 2) (by simp only [p, splitPolyF, hα, hβ]; rfl)
      (by rw [show (1 - mid d) / 2 = -((mid d - 1) / 2) by ring, abs_neg, add_comm 1 (mid d)]; linarith)
      (by rw [show (1 - mid d) / 2 = -((mid d - 1) / 2) by ring, abs_neg, ← neg_sub', abs_neg]; exact c2)
      (by rw [add_comm 1 (mid d)]; exact c1)
      (by
        rintro ⟨-, h⟩
        rw [h, zero_sub, abs_neg] at c1
        have h4 : |(mid d + 1) / 2| = 0 := le_antisymm (by linarith [abs_nonneg ((mid d + 1) / 2)]) (abs_nonneg _)
        have h5 := abs_eq_zero.1 h4
        constructor <;> linarith)
    exact ⟨k1, k2, k3, _, hg0, herr, k4, hgrow⟩

end Split

/-- The arithmetic of one halving or one zoom: `B` bounds the polynomial and `E` is its error; `G` is the error added, `Q * G` the true one. -/
theorem step_arith {B E E' G Q w η : ℝ} (hE : 0 ≤ E) (hG : 0 ≤ G) (hQ : 1 ≤ Q) (h1 : |E' - (E + G)| ≤ 1 / 2 ^ 29 * (E + G))
    (h2 : Q * G ≤ w * B) (hw : 0 ≤ w) (hB : 0 ≤ B) (hη : 1 / 2 ^ 29 + 3 * w ≤ η) :
    0 ≤ E' ∧ B + Q * G + E' ≤ (1 + η) * (B + E) ∧ E - η * (B + E) ≤ E' - Q * G := by
  obtain ⟨h3, h4⟩ := abs_le.1 h1
  have h5 : G ≤ Q * G := le_mul_of_one_le_left hG hQ
  have h6 := mul_le_mul_of_nonneg_right hη (add_nonneg hB hE)
  have h7 : 0 ≤ w * B := mul_nonneg hw hB
  have h8 : 0 ≤ w * E := mul_nonneg hw hE
  refine ⟨?_, ?_, ?_⟩ <;> nlinarith

end YRoots
