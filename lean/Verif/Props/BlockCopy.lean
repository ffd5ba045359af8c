import Verif.Model.BlockCopy
import Verif.Props.MMaker

/-!
# C73, C74: the shared array of `chebyshev_block_copy`, and the approximations made with it
-/

namespace YRoots.Legacy

open Finset

variable {n : ℕ}

/-! ### Specification -/

/-- The array `a` holds the block `v` of `deg + 1` values along each axis, reflected: the entry `j` is the value at `j` or `2 deg - j`. -/
def HoldsMirror (deg : ℕ) (v : (Fin n → ℕ) → ℝ) (a : ValuesArr n) : Prop :=
  2 * deg ≤ a.size ∧ ∀ j : Fin n → ℕ, (∀ i, j i < 2 * deg) → a.arr j = v fun i => if j i ≤ deg then j i else 2 * deg - j i

/-- A call of `chebyshev_block_copy`. -/
structure CopyCall (n : ℕ) where
  garbage : (Fin n → ℕ) → ℝ
  deg : ℕ
  v : (Fin n → ℕ) → ℝ

/-- The array after some calls. -/
def afterCalls (l : List (CopyCall n)) (a : ValuesArr n) : ValuesArr n := l.foldl (fun a c => sharedCopy c.garbage c.deg c.v a) a

/-! ### Helper lemmas -/

theorem boolProduct_cons (n : ℕ) : ∃ tl, boolProduct n = (fun _ => false) :: tl ∧ (∀ b ∈ tl, ∃ i, b i = true) ∧ (1 ≤ n → tl ≠ []) := by
  induction n with
  | zero => exact ⟨[], by simp [boolProduct]; exact funext fun i => i.elim0, by simp, by simp⟩
  | succ n ih =>
    obtain ⟨tl, e, h, -⟩ := ih
    refine ⟨tl.map (fun vs => Fin.cons false vs) ++ (boolProduct n).map (fun vs => Fin.cons true vs), ?_, ?_, ?_⟩
    · rw [boolProduct]
      simp only [List.flatMap_cons, List.flatMap_nil, List.append_nil]
      rw [e]
      simp only [List.map_cons, List.cons_append]
      congr 1
      funext i
      refine Fin.cases ?_ (fun i => ?_) i <;> simp
    · intro b hb
      rcases List.mem_append.1 hb with hb | hb
      · obtain ⟨c, hc, rfl⟩ := List.mem_map.1 hb
        obtain ⟨i, hi⟩ := h c hc
        exact ⟨i.succ, by simpa using hi⟩
      · obtain ⟨c, -, rfl⟩ := List.mem_map.1 hb
        exact ⟨0, by simp⟩
    · intro _ h0
      rw [e] at h0
      simp at h0

theorem canBroadcast_of_le {S deg : ℕ} (hd : 1 ≤ deg) (hS : 2 * deg ≤ S) (b : Fin n → Bool) : canBroadcast S deg b := by
  intro i
  left
  unfold chebLen blockLen
  cases b i
  · simp only [Bool.false_eq_true, if_false]; omega
  · simp only [if_true]; omega

/-- The entries that a block writes. -/
def Writes (deg : ℕ) (b : Fin n → Bool) (j : Fin n → ℕ) : Prop :=
  ∀ i, if b i then deg + 1 ≤ j i ∧ j i < 2 * deg else j i < deg + 1

instance (deg : ℕ) (b : Fin n → Bool) (j : Fin n → ℕ) : Decidable (Writes deg b j) :=
  inferInstanceAs (Decidable (∀ i, if b i then deg + 1 ≤ j i ∧ j i < 2 * deg else j i < deg + 1))

theorem assign_of_writes {deg : ℕ} {v : (Fin n → ℕ) → ℝ} {a : ValuesArr n} {b : Fin n → Bool} {j : Fin n → ℕ} (hS : 2 * deg ≤ a.size)
    (hj : ∀ i, j i < 2 * deg) (h : Writes deg b j) :
    (assignBlock deg v a b).arr j = v fun i => if j i ≤ deg then j i else 2 * deg - j i := by
  unfold assignBlock
  dsimp only
  rw [if_pos fun i => ⟨(hj i).trans_le hS, h i⟩]
  congr 1
  funext i
  have := h i
  cases hb : b i
  · simp only [hb, Bool.false_eq_true, if_false] at this ⊢
    rw [if_pos (by omega)]
  · simp only [hb, if_true] at this ⊢
    rw [if_neg (by omega)]
    omega

theorem assign_of_not_writes {deg : ℕ} {v : (Fin n → ℕ) → ℝ} {a : ValuesArr n} {b : Fin n → Bool} {j : Fin n → ℕ} (h : ¬ Writes deg b j) :
    (assignBlock deg v a b).arr j = a.arr j := by
  unfold assignBlock
  exact if_neg fun h' => h fun i => (h' i).2

theorem fold_good {deg : ℕ} (hd : 1 ≤ deg) (g v : (Fin n → ℕ) → ℝ) (l : List (Fin n → Bool)) (a : ValuesArr n) (hS : 2 * deg ≤ a.size) :
    (l.foldl (copyStep g deg v) a).size = a.size ∧
      (∀ j : Fin n → ℕ, (∀ i, j i < 2 * deg) → (a.arr j = v fun i => if j i ≤ deg then j i else 2 * deg - j i) ∨ (∃ b ∈ l, Writes deg b j) →
        (l.foldl (copyStep g deg v) a).arr j = v fun i => if j i ≤ deg then j i else 2 * deg - j i) ∧
      ∀ j : Fin n → ℕ, (∀ b ∈ l, ¬ Writes deg b j) → (l.foldl (copyStep g deg v) a).arr j = a.arr j := by
  induction l generalizing a with
  | nil =>
    refine ⟨rfl, fun j _ h => ?_, fun j _ => rfl⟩
    rcases h with h | ⟨b, hb, -⟩
    · exact h
    · simp at hb
  | cons b l ih =>
    have hstep : copyStep g deg v a b = assignBlock deg v a b := if_pos (canBroadcast_of_le hd hS b)
    rw [List.foldl_cons, hstep]
    obtain ⟨h1, h2, h3⟩ := ih (assignBlock deg v a b) hS
    refine ⟨h1, fun j hj h => h2 j hj ?_, fun j h => ?_⟩
    · by_cases hb : Writes deg b j
      · exact .inl (assign_of_writes hS hj hb)
      · rcases h with h | ⟨b', hb', h'⟩
        · exact .inl ((assign_of_not_writes hb).trans h)
        · rcases List.mem_cons.1 hb' with e | e
          · rw [e] at h'; exact absurd h' hb
          · exact .inr ⟨b', e, h'⟩
    · rw [h3 j fun b' hb' => h b' (List.mem_cons_of_mem _ hb')]
      exact assign_of_not_writes (h b List.mem_cons_self)

theorem copy_large {deg : ℕ} (hd : 1 ≤ deg) (g v : (Fin n → ℕ) → ℝ) (a : ValuesArr n) (hS : 2 * deg ≤ a.size) :
    (sharedCopy g deg v a).size = a.size ∧ HoldsMirror deg v (sharedCopy g deg v a) := by
  obtain ⟨h1, h2, -⟩ := fold_good hd g v (boolProduct n) a hS
  refine ⟨h1, h1.symm ▸ hS, fun j hj => h2 j hj (.inr ⟨fun i => decide (deg < j i), mem_boolProduct n _, fun i => ?_⟩)⟩
  have := hj i
  by_cases h : deg < j i
  · simp only [h, decide_true, if_true]; omega
  · simp only [h, decide_false, Bool.false_eq_true, if_false]; omega

theorem copy_small {deg : ℕ} (hn : 1 ≤ n) (hd : 1 ≤ deg) (g v : (Fin n → ℕ) → ℝ) (a : ValuesArr n) (hS : a.size < deg + 1) :
    sharedCopy g deg v a = sharedCopy g deg v ⟨2 * deg, g⟩ := by
  obtain ⟨tl, e, -, -⟩ := boolProduct_cons n
  unfold sharedCopy
  rw [e, List.foldl_cons, List.foldl_cons]
  congr 1
  have h1 : ¬ canBroadcast a.size deg (fun _ : Fin n => false) := by
    intro h
    have := h ⟨0, hn⟩
    unfold chebLen blockLen at this
    simp only [Bool.false_eq_true, if_false] at this
    omega
  have h2 : canBroadcast (2 * deg) deg (fun _ : Fin n => false) := canBroadcast_of_le hd le_rfl _
  unfold copyStep
  rw [if_neg h1, if_pos h2]

theorem copy_lost {deg : ℕ} (hn : 1 ≤ n) (hd : 1 ≤ deg) (g v : (Fin n → ℕ) → ℝ) (a : ValuesArr n) (h2 : 2 ∣ a.size)
    (hS : deg + 1 ≤ a.size) (hS2 : a.size < 2 * deg) :
    ∃ tl : List (Fin n → Bool), boolProduct n = (fun _ => false) :: tl ∧ (∀ b ∈ tl, ∃ i, b i = true) ∧
      sharedCopy g deg v a = tl.foldl (copyStep g deg v) ⟨2 * deg, g⟩ := by
  obtain ⟨tl, e, ht, hne⟩ := boolProduct_cons n
  refine ⟨tl, e, ht, ?_⟩
  unfold sharedCopy
  rw [e, List.foldl_cons]
  have hb : canBroadcast a.size deg (fun _ : Fin n => false) := by
    intro i
    left
    unfold chebLen blockLen
    simp only [Bool.false_eq_true, if_false]
    omega
  have hstep : copyStep g deg v a (fun _ => false) = assignBlock deg v a fun _ => false := if_pos hb
  rw [hstep]
  cases htl : tl with
  | nil => exact absurd htl (hne hn)
  | cons b tl' =>
    rw [List.foldl_cons, List.foldl_cons]
    congr 1
    obtain ⟨i, hi⟩ := ht b (by rw [htl]; exact List.mem_cons_self)
    have hnb : ¬ canBroadcast (assignBlock deg v a fun _ => false).size deg b := by
      intro h
      have := h i
      unfold chebLen blockLen at this
      simp only [hi, if_true] at this
      have hs : (assignBlock deg v a fun _ => false).size = a.size := rfl
      rw [hs] at this
      omega
    unfold copyStep
    rw [if_neg hnb, if_pos (canBroadcast_of_le hd (le_refl (2 * deg)) b)]

/-! ### C73 -/

/-- **C73 (partial).** If the shared array is large enough, or too small for the first of the blocks, the result holds the block of values and
its reflections, whatever was in the array before. -/
theorem C73_copy_partial (hn : 1 ≤ n) {deg : ℕ} (hd : 1 ≤ deg) (g v : (Fin n → ℕ) → ℝ) (a : ValuesArr n)
    (hS : a.size < deg + 1 ∨ 2 * deg ≤ a.size) : HoldsMirror deg v (sharedCopy g deg v a) := by
  rcases hS with hS | hS
  · rw [copy_small hn hd g v a hS]
    exact (copy_large hd g v _ le_rfl).2
  · exact (copy_large hd g v a hS).2

/-- **C73 is false otherwise.** For every size between `deg + 1` and `2 deg`, the array is replaced after the first block was copied: the
values of that block are lost, and the entries hold whatever `np.empty` returned. -/
theorem C73_lost_false (hn : 1 ≤ n) {deg : ℕ} (hd : 1 ≤ deg) (g v : (Fin n → ℕ) → ℝ) (a : ValuesArr n) (h2 : 2 ∣ a.size)
    (hS : deg + 1 ≤ a.size) (hS2 : a.size < 2 * deg) (j : Fin n → ℕ) (hj : ∀ i, j i ≤ deg) : (sharedCopy g deg v a).arr j = g j := by
  obtain ⟨tl, -, ht, e⟩ := copy_lost hn hd g v a h2 hS hS2
  rw [e]
  refine (fold_good hd g v tl ⟨2 * deg, g⟩ le_rfl).2.2 j fun b hb hw => ?_
  obtain ⟨i, hi⟩ := ht b hb
  have h1 := hw i
  have h3 := hj i
  simp only [hi, if_true] at h1
  omega

theorem copy_size (hn : 1 ≤ n) {deg : ℕ} (hd : 1 ≤ deg) (g v : (Fin n → ℕ) → ℝ) (a : ValuesArr n) (h2 : 2 ∣ a.size) :
    (sharedCopy g deg v a).size = max a.size (2 * deg) := by
  by_cases hS : 2 * deg ≤ a.size
  · rw [(copy_large hd g v a hS).1, max_eq_left hS]
  · rw [not_le] at hS
    rw [max_eq_right hS.le]
    by_cases hS' : a.size < deg + 1
    · rw [copy_small hn hd g v a hS', (copy_large hd g v _ (le_refl (2 * deg))).1]
    · rw [not_lt] at hS'
      obtain ⟨tl, -, -, e⟩ := copy_lost hn hd g v a h2 hS' hS
      rw [e, (fold_good hd g v tl ⟨2 * deg, g⟩ le_rfl).1]

theorem after_size (hn : 1 ≤ n) (l : List (CopyCall n)) (hl : ∀ c ∈ l, 1 ≤ c.deg) (a : ValuesArr n) (h2 : 2 ∣ a.size) :
    2 ∣ (afterCalls l a).size ∧ a.size ≤ (afterCalls l a).size ∧ ∀ c ∈ l, 2 * c.deg ≤ (afterCalls l a).size := by
  induction l generalizing a with
  | nil => exact ⟨h2, le_rfl, by simp⟩
  | cons c l ih =>
    have hs := copy_size hn (hl c List.mem_cons_self) c.garbage c.v a h2
    have h2' : 2 ∣ (sharedCopy c.garbage c.deg c.v a).size := by
      rw [hs]
      rcases max_choice a.size (2 * c.deg) with e | e <;> rw [e]
      · exact h2
      · exact ⟨_, rfl⟩
    obtain ⟨i1, i2, i3⟩ := ih (fun c hc => hl c (List.mem_cons_of_mem _ hc)) _ h2'
    change 2 ∣ (afterCalls l _).size ∧ a.size ≤ (afterCalls l _).size ∧ ∀ c' ∈ c :: l, 2 * c'.deg ≤ (afterCalls l _).size
    rw [hs] at i2
    refine ⟨i1, (le_max_left _ _).trans i2, fun c' hc' => ?_⟩
    rcases List.mem_cons.1 hc' with e | e
    · rw [e]; exact (le_max_right _ _).trans i2
    · exact i3 c' e

/-- **C73, for a run.** After any sequence of calls, a call with a degree that is at most half the initial size, or that is at most the degree
of an earlier call, gives the right result. -/
theorem C73_run_partial (hn : 1 ≤ n) (l : List (CopyCall n)) (hl : ∀ c ∈ l, 1 ≤ c.deg) (a : ValuesArr n) (h2 : 2 ∣ a.size) {deg : ℕ}
    (hd : 1 ≤ deg) (h : 2 * deg ≤ a.size ∨ ∃ c ∈ l, deg ≤ c.deg) (g v : (Fin n → ℕ) → ℝ) :
    HoldsMirror deg v (sharedCopy g deg v (afterCalls l a)) := by
  obtain ⟨-, h3, h4⟩ := after_size hn l hl a h2
  refine C73_copy_partial hn hd g v _ (.inr ?_)
  rcases h with h | ⟨c, hc, h⟩
  · omega
  · have := h4 c hc
    omega

/-- A second call with the degree of the first; the array of a fresh solver for degree 20 is too small for 40. -/
example : HoldsMirror 40 (fun j : Fin 2 → ℕ => (j 0 : ℝ) + j 1)
    (sharedCopy (fun _ => 0) 40 (fun j => (j 0 : ℝ) + j 1) (afterCalls [⟨fun _ => 5, 40, fun _ => 1⟩] (freshArr (fun _ => 7) 20))) :=
  C73_run_partial (n := 2) (by norm_num) [⟨fun _ => 5, 40, fun _ => 1⟩] (by simp) (freshArr (fun _ => 7) 20) ⟨23, rfl⟩ (by norm_num)
    (.inr ⟨_, List.mem_singleton_self _, le_rfl⟩) _ _

/-! ### C74 -/

theorem sharedApprox_size (hn : 1 ≤ n) {deg : ℕ} (hd : 1 ≤ deg) (g : (Fin n → ℕ) → ℝ) (F : MakerFn n) (st : ValuesArr n) (h2 : 2 ∣ st.size) :
    (sharedApprox g F deg st).2.size = max st.size (2 * deg) := copy_size hn hd g _ st h2

theorem sharedApprox_eq {deg : ℕ} (hd : 1 ≤ deg) (g : (Fin n → ℕ) → ℝ) (F : MakerFn n) (st : ValuesArr n)
    (h : HoldsMirror deg (fun j => F.f (gridPt (fun _ => deg) F.a F.b j)) (sharedApprox g F deg st).2) :
    (sharedApprox g F deg st).1.1 = interp F fun _ => deg := by
  have hd' : ∀ i : Fin n, 1 ≤ (fun _ : Fin n => deg) i := fun _ => hd
  rw [interp, ← fftCoeffs_eq F (fun _ => deg) hd' (gridValues F fun _ => deg) fun j _ => rfl]
  obtain ⟨hs, hv⟩ := h
  unfold sharedApprox at hs hv ⊢
  unfold fftCoeffs
  dsimp only at hs hv ⊢
  congr 2
  funext k
  rw [Nat.min_eq_right hs, Finset.prod_const, Finset.card_univ, Fintype.card_fin]
  congr 1
  unfold fftn
  refine Finset.sum_congr rfl fun j hj => ?_
  rw [Fintype.mem_piFinset] at hj
  have hj' : ∀ i, j i < 2 * deg := fun i => mem_range.1 (hj i)
  beta_reduce
  rw [hv j hj', blockCopy_eq (fun _ => deg) _ j hj']
  rfl

theorem sharedApprox_norm {deg : ℕ} (g : (Fin n → ℕ) → ℝ) (F : MakerFn n) (st : ValuesArr n) :
    GridNorm F (fun _ => deg) (sharedApprox g F deg st).1.2 := by
  have h := foldl_max_abs (Fintype.piFinset fun _ : Fin n => range (deg + 1)).toList
    (fun j => F.f (gridPt (fun _ => deg) F.a F.b j)) 0 le_rfl
  have hmem : ∀ j : Fin n → ℕ, j ∈ (Fintype.piFinset fun _ : Fin n => range (deg + 1)).toList ↔ ∀ i, j i ≤ deg := by
    intro j
    rw [Finset.mem_toList, Fintype.mem_piFinset]
    simp
  obtain ⟨-, h2, h3⟩ := h
  have hpt : ∀ j : Fin n → ℕ, gridPt (fun _ => deg) F.a F.b j = onBox F (extremum (fun _ => deg) j) := fun j => rfl
  have hle : ∀ j : Fin n → ℕ, (∀ i, j i ≤ deg) → |F.f (onBox F (extremum (fun _ => deg) j))| ≤ (sharedApprox g F deg st).1.2 := by
    intro j hj
    rw [← hpt]
    exact h2 j ((hmem j).2 hj)
  refine ⟨hle, ?_⟩
  rcases h3 with h3 | ⟨j, hj, h3⟩
  · have h0 := hle (fun _ => 0) fun i => Nat.zero_le _
    have h0' : (sharedApprox g F deg st).1.2 = 0 := h3
    refine ⟨fun _ => 0, fun i => Nat.zero_le _, ?_⟩
    rw [h0'] at h0 ⊢
    exact (le_antisymm h0 (abs_nonneg _)).symm
  · refine ⟨j, (hmem j).1 hj, ?_⟩
    rw [← hpt]
    exact h3

/-- Interpolating a polynomial of degree at most `deg` with degree `2 deg` gives the same coefficients. -/
theorem getErr_poly {deg : ℕ} (hd : 1 ≤ deg) (F : MakerFn n) (p : MvPolynomial (Fin n) ℝ) (hp : ∀ i, p.degreeOf i ≤ deg)
    (hf : F.f = fun x => MvPolynomial.eval x p) : getErr (interp F fun _ => deg) (interp F fun _ => 2 * deg) = 0 := by
  set M := interp F fun _ => deg with hM
  have hN : ∀ i : Fin n, 1 ≤ (fun _ : Fin n => 2 * deg) i := fun _ => by dsimp only; omega
  have hcoef : ∀ k, (interp F fun _ => 2 * deg).coef k =
      fullCoef (fun _ => 2 * deg) (fun j => F.f (gridPt (fun _ => 2 * deg) F.a F.b j)) k := fun k => by
    unfold interp intervalApproximate fullCoef
    simp only [bumpDegs_eq hN]
  have hsub : M.idx ⊆ gridIdx (n := n) fun _ => 2 * deg := fun k hk => by
    rw [mem_gridIdx]
    intro i
    have : k i < deg + 1 := mem_range.1 ((Fintype.mem_piFinset.1 hk) i)
    omega
  have hidx : ∀ k, k ∈ M.idx ↔ ∀ i, k i < M.shape i := fun k => by
    unfold Tensor.idx
    rw [Fintype.mem_piFinset]
    simp
  unfold getErr
  refine Finset.sum_eq_zero fun k hk => ?_
  have hk' : k ∈ gridIdx (n := n) fun _ => 2 * deg := by
    rw [mem_gridIdx]
    intro i
    have : k i < 2 * deg + 1 := mem_range.1 ((Fintype.mem_piFinset.1 hk) i)
    omega
  rw [hcoef k, fullCoef_recover (fun _ => 2 * deg) hN (fun m => if ∀ i, m i < M.shape i then M.coef m else 0) _ (fun j _ => ?_) k hk']
  · split_ifs <;> simp
  · have e1 : F.f (gridPt (fun _ => 2 * deg) F.a F.b j) = M.eval fun i => chebPt (2 * deg) (j i) := by
      rw [hM, interp, hf, C36_exact p (fun _ => deg) hp]
      rfl
    rw [e1, Tensor.eval]
    refine Finset.sum_subset_zero_on_sdiff hsub (fun m hm => ?_) fun m hm => ?_
    · rw [if_neg fun h => (Finset.mem_sdiff.1 hm).2 ((hidx m).2 h), zero_mul]
    · rw [if_pos ((hidx m).1 hm)]

/-- **C74 (partial).** If the size of the array is at least `4 deg`, or exactly `2 deg`, or at most `deg`, `full_cheb_approximate` returns the
largest value of `|f|` on the finer grid and a bound for the difference of the interpolants of degree `deg` and `2 deg` on the cube; it
returns the interpolant exactly if that bound is at most the tolerance; a polynomial of degree at most `deg` gives the error 0 and is
reproduced. -/
theorem C74_full_partial (hn : 1 ≤ n) {deg : ℕ} (hd : 1 ≤ deg) (g1 g2 : (Fin n → ℕ) → ℝ) (F : MakerFn n) (absTol relTol : ℝ)
    (st : ValuesArr n) (h2 : 2 ∣ st.size) (hS : 4 * deg ≤ st.size ∨ st.size = 2 * deg ∨ st.size ≤ deg) :
    ∃ (M M2 : Tensor n ℝ) (norm err : ℝ), Interpolates F (fun _ => deg) M ∧ Interpolates F (fun _ => 2 * deg) M2 ∧
      GridNorm F (fun _ => 2 * deg) norm ∧ (∀ x : Fin n → ℝ, (∀ i, |x i| ≤ 1) → |M2.eval x - M.eval x| ≤ err) ∧
      (∀ p : MvPolynomial (Fin n) ℝ, (∀ i, p.degreeOf i ≤ deg) → F.f = (fun x => MvPolynomial.eval x p) →
        err = 0 ∧ ∀ x, M.eval x = F.f (onBox F x)) ∧
      (fullCheb g1 g2 F deg absTol relTol st).1 = (if test (err > absTol + relTol * norm) then none else some M, norm, err) := by
  have hd2 : 1 ≤ 2 * deg := by omega
  have hs := sharedApprox_size hn hd g1 F st h2
  have e1 : (sharedApprox g1 F deg st).1.1 = interp F fun _ => deg :=
    sharedApprox_eq hd g1 F st (C73_copy_partial hn hd _ _ _ (by omega))
  have e2 : (sharedApprox g2 F (2 * deg) (sharedApprox g1 F deg st).2).1.1 = interp F fun _ => 2 * deg :=
    sharedApprox_eq hd2 g2 F _ (C73_copy_partial hn hd2 _ _ _ (by rw [hs]; omega))
  refine ⟨interp F fun _ => deg, interp F fun _ => 2 * deg, _, getErr (interp F fun _ => deg) (interp F fun _ => 2 * deg),
    interp_interpolates F _ fun _ => hd, interp_interpolates F _ fun _ => hd2,
    sharedApprox_norm g2 F (sharedApprox g1 F deg st).2, fun x hx => ?_, fun p hp hf => ⟨getErr_poly hd F p hp hf, fun x => ?_⟩, ?_⟩
  · exact abs_sub_le_getErr _ _ (fun i => by rw [interp_shape, interp_shape]; dsimp only; omega) x hx
  · rw [interp, hf]
    exact C36_exact p (fun _ => deg) hp F.a F.b x
  · unfold fullCheb
    dsimp only
    rw [e1, e2]

/-- `exp(x y)` on `[0, 1]^2`. -/
noncomputable def expXY : MakerFn 2 := ⟨fun x => Real.exp (x 0 * x 1), fun _ => 0, fun _ => 1, false⟩

/-- With degree 3 and the array of a fresh solver. -/
example : ∃ M : Tensor 2 ℝ, Interpolates expXY (fun _ => 3) M ∧
    ((fullCheb (fun _ => 5) (fun _ => 6) expXY 3 0 0 (freshArr (fun _ => 7) 3)).1.1 = none ∨
      (fullCheb (fun _ => 5) (fun _ => 6) expXY 3 0 0 (freshArr (fun _ => 7) 3)).1.1 = some M) := by
  obtain ⟨M, M2, norm, err, h1, -, -, -, -, h⟩ := C74_full_partial (n := 2) (by norm_num) (deg := 3) (by norm_num) (fun _ => 5) (fun _ => 6)
    expXY 0 0 (freshArr (fun _ => 7) 3) ⟨6, rfl⟩ (.inl (by simp [freshArr]))
  refine ⟨M, h1, ?_⟩
  rw [h]
  dsimp only
  split_ifs
  · exact .inl rfl
  · exact .inr rfl

/-- **C74 is false for the first approximation of a solve.** For every degree above 3, in every dimension and with every absolute tolerance,
there is a content of uninitialised memory with which the zero function is found to be approximated badly. -/
theorem C74_zero_false (hn : 1 ≤ n) {deg : ℕ} (hd : 4 ≤ deg) (g0 g1 : (Fin n → ℕ) → ℝ) (a b : Fin n → ℝ) (grid : Bool) (absTol relTol : ℝ) :
    ∃ g2, (fullCheb g1 g2 ⟨fun _ => 0, a, b, grid⟩ deg absTol relTol (freshArr g0 deg)).1.1 = none := by
  set F : MakerFn n := ⟨fun _ => 0, a, b, grid⟩ with hF
  set C : ℝ := (|absTol| + 1) * (4 * deg) ^ n with hC
  have hCpos : 0 < C := by positivity
  refine ⟨fun _ => C, ?_⟩
  have hd1 : 1 ≤ deg := by omega
  have hd2 : 1 ≤ 2 * deg := by omega
  have h2 : 2 ∣ (freshArr g0 deg).size := ⟨deg + 3, rfl⟩
  have hs : (sharedApprox g1 F deg (freshArr g0 deg)).2.size = 2 * (deg + 3) := by
    rw [sharedApprox_size hn hd1 g1 F _ h2]
    simp only [freshArr]
    omega
  set st := (sharedApprox g1 F deg (freshArr g0 deg)).2 with hst
  set r2 := sharedApprox (fun _ => C) F (2 * deg) st with hr2
  have e1 : (sharedApprox g1 F deg (freshArr g0 deg)).1.1 = interp F fun _ => deg :=
    sharedApprox_eq hd1 g1 F _ (C73_copy_partial hn hd1 _ _ _ (.inr (by simp only [freshArr]; omega)))
  have hnorm : r2.1.2 = 0 := by
    obtain ⟨-, j, -, h⟩ := sharedApprox_norm (deg := 2 * deg) (fun _ => C) F st
    rw [hr2, h]
    simp [hF]
  have hcoef0 : (interp F fun _ => deg).coef (fun _ => 0) = 0 := by
    unfold interp intervalApproximate
    simp only [halveEdges_eq, hF, dctn]
    simp
  -- the entries of the array
  have hsize : r2.2.size = 2 * (2 * deg) := by
    rw [hr2, sharedApprox_size hn hd2 _ F st (by rw [hs]; exact ⟨_, rfl⟩), hs]
    omega
  have harr0 : r2.2.arr (fun _ => 0) = C :=
    C73_lost_false hn hd2 _ _ st (by rw [hs]; exact ⟨_, rfl⟩) (by rw [hs]; omega) (by rw [hs]; omega) _ fun _ => Nat.zero_le _
  have harr : ∀ j : Fin n → ℕ, (∀ i, j i < 2 * (2 * deg)) → 0 ≤ r2.2.arr j := by
    intro j hj
    by_cases hle : ∀ i, j i ≤ 2 * deg
    · have : r2.2.arr j = C :=
        C73_lost_false hn hd2 _ _ st (by rw [hs]; exact ⟨_, rfl⟩) (by rw [hs]; omega) (by rw [hs]; omega) j hle
      rw [this]; exact hCpos.le
    · obtain ⟨tl, etl, -, e⟩ := copy_lost hn hd2 (fun _ => C) (fun j => F.f (gridPt (fun _ => 2 * deg) F.a F.b j)) st
        (by rw [hs]; exact ⟨_, rfl⟩) (by rw [hs]; omega) (by rw [hs]; omega)
      have e' : r2.2 = tl.foldl (copyStep (fun _ => C) (2 * deg) fun j => F.f (gridPt (fun _ => 2 * deg) F.a F.b j)) ⟨2 * (2 * deg), fun _ => C⟩ := e
      rw [e', (fold_good hd2 _ _ tl _ (le_refl _)).2.1 j hj (.inr ?_)]
      have hmem := mem_boolProduct n fun i => decide (2 * deg < j i)
      rw [etl, List.mem_cons] at hmem
      refine ⟨_, hmem.resolve_left fun h => ?_, fun i => ?_⟩
      · push Not at hle
        obtain ⟨i, hi⟩ := hle
        have := congrFun h i
        simp only [decide_eq_false_iff_not] at this
        exact this hi
      · have := hj i
        by_cases h : 2 * deg < j i
        · simp only [h, decide_true, if_true]; omega
        · simp only [h, decide_false, Bool.false_eq_true, if_false]; omega
  have hcoef : |absTol| + 1 ≤ r2.1.1.coef fun _ => 0 := by
    have : r2.1.1.coef (fun _ => 0) = (fftn (fun _ => min r2.2.size (2 * (2 * deg)))
        (fun j => r2.2.arr j / ((2 * deg : ℕ) : ℝ) ^ n) fun _ => 0).re * ∏ i : Fin n, wt (2 * deg) 0 := by
      rw [hr2]
      unfold sharedApprox
      simp only [halveEdges_eq]
    rw [this, hsize, Nat.min_self, fftn]
    have hw : wt (2 * deg) 0 = 1 / 2 := by
      unfold wt
      rw [if_pos rfl, if_neg (by omega)]
      norm_num
    simp only [hw, Finset.prod_const, Finset.card_univ, Fintype.card_fin, Nat.cast_zero, mul_zero, zero_div, Complex.exp_zero, one_pow, mul_one]
    rw [← Complex.ofReal_sum, Complex.ofReal_re]
    have hle := Finset.single_le_sum (f := fun j : Fin n → ℕ => r2.2.arr j / ((2 * deg : ℕ) : ℝ) ^ n)
      (s := Fintype.piFinset fun _ : Fin n => range (2 * (2 * deg))) (fun j hj => div_nonneg (harr j fun i => mem_range.1
        ((Fintype.mem_piFinset.1 hj) i)) (by positivity)) (a := fun _ => 0) (Fintype.mem_piFinset.2 fun i => mem_range.2 (by omega))
    beta_reduce at hle
    rw [harr0] at hle
    refine le_trans (le_of_eq ?_) (mul_le_mul_of_nonneg_right hle (by positivity))
    rw [hC]
    have : ((2 * deg : ℕ) : ℝ) ≠ 0 := by positivity
    push_cast
    rw [show (4 * (deg : ℝ)) = (2 * deg) * 2 by ring, mul_pow, one_div, inv_pow]
    field_simp
  have herr : |absTol| + 1 ≤ getErr (interp F fun _ => deg) r2.1.1 := by
    unfold getErr
    have hsh : r2.1.1.shape = fun _ => 2 * deg + 1 := rfl
    refine le_trans ?_ (Finset.single_le_sum (fun k _ => abs_nonneg _) (a := fun _ => 0)
      (Fintype.mem_piFinset.2 fun i => mem_range.2 (by rw [hsh]; exact Nat.succ_pos _)))
    rw [if_pos fun i => by rw [interp_shape]; exact Nat.succ_pos _, hcoef0, sub_zero]
    exact hcoef.trans (le_abs_self _)
  unfold fullCheb
  dsimp only
  rw [e1, ← hst, ← hr2, hnorm, mul_zero, add_zero]
  refine if_pos ?_
  have := le_abs_self absTol
  simp only [test, decide_eq_true_eq]
  linarith

end YRoots.Legacy
