import Verif.Model.MMaker
import Verif.Props.Approx
import Verif.Proofs.ApproxLoop

/-!
# Helper lemmas: the FFT of the mirrored block is the cosine transform
-/

namespace YRoots.Legacy

open Finset

variable {n : ℕ}

/-- The index that is copied to `j`. -/
def mirror (N j : ℕ) : ℕ := if j ≤ N then j else 2 * N - j

theorem foldl_override {β : Type*} (P : β → (Fin n → ℕ) → Prop) [∀ b j, Decidable (P b j)] (w : β → (Fin n → ℕ) → ℝ) (l : List β)
    (arr : (Fin n → ℕ) → ℝ) (j : Fin n → ℕ) (val : ℝ) (hval : ∀ b, P b j → w b j = val) (hex : arr j = val ∨ ∃ b ∈ l, P b j) :
    l.foldl (fun arr b => fun j => if P b j then w b j else arr j) arr j = val := by
  induction l generalizing arr with
  | nil =>
    rcases hex with h | ⟨b, hb, -⟩
    · exact h
    · simp at hb
  | cons b l ih =>
    rw [List.foldl_cons]
    refine ih _ ?_
    by_cases hb : P b j
    · exact .inl (by simp only [if_pos hb]; exact hval b hb)
    · rcases hex with h | ⟨b', hb', h⟩
      · exact .inl (by simp only [if_neg hb]; exact h)
      · rcases List.mem_cons.1 hb' with e | e
        · rw [e] at h; exact absurd h hb
        · exact .inr ⟨b', e, h⟩

theorem blockCopy_eq (degs : Fin n → ℕ) (v : (Fin n → ℕ) → ℝ) (j : Fin n → ℕ) (hj : ∀ i, j i < 2 * degs i) :
    blockCopy degs v j = v fun i => mirror (degs i) (j i) := by
  unfold blockCopy
  refine foldl_override (fun (block : Fin n → Bool) j => ∀ i, if block i then degs i + 1 ≤ j i ∧ j i < 2 * degs i else j i < degs i + 1)
    (fun block j => v fun i => if block i then degs i - 1 - (j i - (degs i + 1)) else j i) _ _ j _ ?_ (.inr ?_)
  · intro block h
    congr 1
    funext i
    have := h i
    unfold mirror
    cases hb : block i with
    | false =>
      simp only [hb] at this ⊢
      rw [if_neg (by simp)] at this ⊢
      rw [if_pos (by omega)]
    | true =>
      simp only [hb, if_true] at this ⊢
      rw [if_neg (by omega)]
      omega
  · refine ⟨fun i => decide (degs i < j i), mem_boolProduct n _, fun i => ?_⟩
    have := hj i
    by_cases h : degs i < j i
    · simp only [h, decide_true, if_true]; omega
    · simp only [h, decide_false]
      rw [if_neg (by simp)]
      omega

/-- Sums over mirrored indices, axis by axis. -/
theorem sum_mirror (A B : Fin n → Finset ℕ) (φ : Fin n → ℕ → ℕ) (hφ : ∀ i, ∀ x ∈ A i, φ i x ∈ B i) (g : (Fin n → ℕ) → ℂ)
    (e : Fin n → ℕ → ℂ) :
    ∑ J ∈ Fintype.piFinset A, g (fun i => φ i (J i)) * ∏ i, e i (J i) =
      ∑ j ∈ Fintype.piFinset B, g j * ∏ i, ∑ x ∈ (A i).filter (fun x => φ i x = j i), e i x := by
  rw [← Finset.sum_fiberwise_of_maps_to (s := Fintype.piFinset A) (t := Fintype.piFinset B) (g := fun J i => φ i (J i))]
  · refine Finset.sum_congr rfl fun j _ => ?_
    rw [Finset.prod_univ_sum, Finset.mul_sum]
    have hset : (Fintype.piFinset A).filter (fun J => (fun i => φ i (J i)) = j) =
        Fintype.piFinset fun i => (A i).filter fun x => φ i x = j i := by
      ext J
      simp only [mem_filter, Fintype.mem_piFinset]
      constructor
      · rintro ⟨h1, h2⟩ i
        exact ⟨h1 i, congrFun h2 i⟩
      · intro h
        exact ⟨fun i => (h i).1, funext fun i => (h i).2⟩
    rw [hset]
    refine Finset.sum_congr rfl fun J hJ => ?_
    have : (fun i => φ i (J i)) = j := by
      rw [← hset, mem_filter] at hJ
      exact hJ.2
    rw [this]
  · intro J hJ
    rw [Fintype.mem_piFinset] at hJ ⊢
    exact fun i => hφ i _ (hJ i)

theorem exp_half_turn (k : ℕ) : Complex.exp (-2 * Real.pi * Complex.I * (k / 2)) = (-1) ^ k := by
  have : (-2 * Real.pi * Complex.I * ((k : ℂ) / 2)) = (k : ℂ) * (-(Real.pi * Complex.I)) := by ring
  rw [this, Complex.exp_nat_mul, Complex.exp_neg, Complex.exp_pi_mul_I]
  norm_num

/-- One axis: the exponentials that belong to index `j` add up to the kernel of the cosine transform. -/
theorem kernel_sum (N k j : ℕ) (hN : 1 ≤ N) (hj : j ≤ N) :
    ∑ x ∈ (range (2 * N)).filter (fun x => mirror N x = j),
      Complex.exp (-2 * Real.pi * Complex.I * ((x : ℂ) * k / ((2 * N : ℕ) : ℂ))) = ((dctKernel N k j : ℝ) : ℂ) := by
  have hN0 : (N : ℂ) ≠ 0 := by exact_mod_cast (show N ≠ 0 by omega)
  unfold dctKernel
  by_cases h0 : j = 0
  · subst h0
    have : (range (2 * N)).filter (fun x => mirror N x = 0) = {0} := by
      ext x
      simp only [mem_filter, mem_range, mem_singleton]
      unfold mirror
      split_ifs <;> omega
    rw [this, sum_singleton]
    simp
  · rw [if_neg h0]
    by_cases h1 : j = N
    · subst h1
      have : (range (2 * j)).filter (fun x => mirror j x = j) = {j} := by
        ext x
        simp only [mem_filter, mem_range, mem_singleton]
        unfold mirror
        split_ifs <;> omega
      rw [this, sum_singleton, if_pos rfl]
      have e : (j : ℂ) * k / ((2 * j : ℕ) : ℂ) = k / 2 := by
        push_cast
        field_simp
      rw [e, exp_half_turn]
      push_cast
      rfl
    · rw [if_neg h1]
      have : (range (2 * N)).filter (fun x => mirror N x = j) = {j, 2 * N - j} := by
        ext x
        simp only [mem_filter, mem_range, mem_singleton, mem_insert]
        unfold mirror
        split_ifs <;> omega
      rw [this, sum_pair (by omega)]
      have e1 : -2 * Real.pi * Complex.I * ((j : ℂ) * k / ((2 * N : ℕ) : ℂ)) = -((Real.pi * k * j / N : ℂ) * Complex.I) := by
        push_cast
        field_simp
      have e2 : -2 * Real.pi * Complex.I * (((2 * N - j : ℕ) : ℂ) * k / ((2 * N : ℕ) : ℂ)) =
          (Real.pi * k * j / N : ℂ) * Complex.I + (k : ℤ) * -(2 * Real.pi * Complex.I) := by
        rw [Nat.cast_sub (by omega)]
        push_cast
        field_simp
        ring
      have e3 : Complex.exp ((Real.pi * k * j / N : ℂ) * Complex.I + (k : ℤ) * -(2 * Real.pi * Complex.I)) =
          Complex.exp ((Real.pi * k * j / N : ℂ) * Complex.I) := by
        rw [mul_neg, ← sub_eq_add_neg]
        exact Complex.exp_periodic.sub_int_mul_eq k
      rw [e1, e2, e3]
      have hc : ((2 * Real.cos (Real.pi * k * j / N) : ℝ) : ℂ) = 2 * Complex.cos (Real.pi * k * j / N) := by push_cast; rfl
      rw [hc, Complex.two_cos]
      rw [add_comm, neg_mul]

/-- The real part of the FFT of the mirrored block is the cosine transform of the block. -/
theorem fftn_mirror (degs : Fin n → ℕ) (hd : ∀ i, 1 ≤ degs i) (w : (Fin n → ℕ) → ℝ) (k : Fin n → ℕ) :
    (fftn (fun i => 2 * degs i) (fun j => w fun i => mirror (degs i) (j i)) k).re = dctn degs w k := by
  unfold fftn dctn
  have h := sum_mirror (fun i => range (2 * degs i)) (fun i => range (degs i + 1)) (fun i => mirror (degs i))
    (fun i x hx => by
      rw [mem_range] at *
      unfold mirror
      have := hd i
      split_ifs <;> omega)
    (fun j => ((w j : ℝ) : ℂ))
    (fun i x => Complex.exp (-2 * Real.pi * Complex.I * ((x : ℂ) * k i / ((2 * degs i : ℕ) : ℂ))))
  rw [h]
  have h2 : ∀ j ∈ Fintype.piFinset fun i => range (degs i + 1),
      ((w j : ℝ) : ℂ) * ∏ i, ∑ x ∈ (range (2 * degs i)).filter (fun x => mirror (degs i) x = j i),
        Complex.exp (-2 * Real.pi * Complex.I * ((x : ℂ) * k i / ((2 * degs i : ℕ) : ℂ))) =
      ((w j * ∏ i, dctKernel (degs i) (k i) (j i) : ℝ) : ℂ) := by
    intro j hj
    rw [Fintype.mem_piFinset] at hj
    rw [Complex.ofReal_mul, Complex.ofReal_prod]
    congr 1
    refine Finset.prod_congr rfl fun i _ => ?_
    have := mem_range.1 (hj i)
    exact kernel_sum (degs i) (k i) (j i) (hd i) (by omega)
  rw [Finset.sum_congr rfl h2, ← Complex.ofReal_sum, Complex.ofReal_re]

/-- If the block holds the samples of `f`, the coefficients are those of the interpolant. -/
theorem fftCoeffs_eq (F : MakerFn n) (degs : Fin n → ℕ) (hd : ∀ i, 1 ≤ degs i) (block : Tensor n ℝ)
    (hb : ∀ j, (∀ i, j i ≤ degs i) → block.coef j = F.f (gridPt degs F.a F.b j)) :
    (fftCoeffs degs block).1 = (intervalApproximate F.f degs F.a F.b).coeffs := by
  unfold fftCoeffs intervalApproximate
  simp only [bumpDegs_eq hd]
  congr 2
  funext k
  have h1 : fftn (fun i => 2 * degs i) (fun j => blockCopy degs block.coef j / ∏ i, (degs i : ℝ)) k =
      fftn (fun i => 2 * degs i) (fun j => (fun j => block.coef j / ∏ i, (degs i : ℝ)) fun i => mirror (degs i) (j i)) k := by
    unfold fftn
    refine Finset.sum_congr rfl fun j hj => ?_
    rw [Fintype.mem_piFinset] at hj
    beta_reduce
    rw [blockCopy_eq degs _ j fun i => mem_range.1 (hj i)]
  rw [h1, fftn_mirror degs hd (fun j => block.coef j / ∏ i, (degs i : ℝ))]
  unfold dctn
  refine Finset.sum_congr rfl fun j hj => ?_
  rw [Fintype.mem_piFinset] at hj
  beta_reduce
  rw [hb j fun i => by have := mem_range.1 (hj i); omega]

theorem foldl_max_abs {α : Type*} (l : List α) (v : α → ℝ) (m : ℝ) (hm : 0 ≤ m) :
    m ≤ l.foldl (fun m j => max m |v j|) m ∧ (∀ j ∈ l, |v j| ≤ l.foldl (fun m j => max m |v j|) m) ∧
      (l.foldl (fun m j => max m |v j|) m = m ∨ ∃ j ∈ l, l.foldl (fun m j => max m |v j|) m = |v j|) := by
  induction l generalizing m with
  | nil => exact ⟨le_refl _, by simp, .inl rfl⟩
  | cons a l ih =>
    obtain ⟨h1, h2, h3⟩ := ih (max m |v a|) (le_max_of_le_left hm)
    rw [List.foldl_cons]
    refine ⟨(le_max_left _ _).trans h1, ?_, ?_⟩
    · intro j hj
      rcases List.mem_cons.1 hj with rfl | hj
      · exact (le_max_right _ _).trans h1
      · exact h2 j hj
    · rcases h3 with h3 | ⟨j, hj, h3⟩
      · rcases max_choice m |v a| with e | e
        · exact .inl (h3.trans e)
        · exact .inr ⟨a, List.mem_cons_self, h3.trans e⟩
      · exact .inr ⟨j, List.mem_cons_of_mem _ hj, h3⟩

/-- The norm is the largest absolute value of a sample. -/
theorem fftCoeffs_norm (degs : Fin n → ℕ) (hd : ∀ i, 1 ≤ degs i) (block : Tensor n ℝ) :
    (∀ j, (∀ i, j i ≤ degs i) → |block.coef j| ≤ (fftCoeffs degs block).2) ∧
      ∃ j, (∀ i, j i ≤ degs i) ∧ (fftCoeffs degs block).2 = |block.coef j| := by
  have h := foldl_max_abs (Fintype.piFinset fun i => range (2 * degs i)).toList (blockCopy degs block.coef) 0 le_rfl
  have hmem : ∀ j, j ∈ (Fintype.piFinset fun i => range (2 * degs i)).toList ↔ ∀ i, j i < 2 * degs i := by
    intro j
    rw [Finset.mem_toList, Fintype.mem_piFinset]
    simp
  obtain ⟨h1, h2, h3⟩ := h
  have hle : ∀ j : Fin n → ℕ, (∀ i, j i ≤ degs i) → |block.coef j| ≤ (fftCoeffs degs block).2 := by
    intro j hj
    have hj2 : ∀ i, j i < 2 * degs i := fun i => by have := hj i; have := hd i; omega
    have := h2 j ((hmem j).2 hj2)
    rw [blockCopy_eq degs _ j hj2] at this
    have e : (fun i => mirror (degs i) (j i)) = j := by
      funext i
      unfold mirror
      rw [if_pos (hj i)]
    rwa [e] at this
  refine ⟨hle, ?_⟩
  rcases h3 with h3 | ⟨j, hj, h3⟩
  · have h0 := hle (fun _ => 0) fun i => Nat.zero_le _
    have h0' : (fftCoeffs degs block).2 = 0 := h3
    refine ⟨fun _ => 0, fun i => Nat.zero_le _, ?_⟩
    rw [h0'] at h0 ⊢
    exact (le_antisymm h0 (abs_nonneg _)).symm
  · have hj2 := (hmem j).1 hj
    rw [blockCopy_eq degs _ j hj2] at h3
    refine ⟨_, fun i => ?_, h3⟩
    have := hj2 i
    unfold mirror
    split_ifs <;> omega

/-! ### The dictionaries -/

section Dict

variable {κ β : Type*} [DecidableEq κ]

/-- The keys in order of insertion. -/
def keys (d : List (κ × β)) : List κ := d.map Prod.fst

theorem dictGet_mem {d : List (κ × β)} {k : κ} {v : β} (h : dictGet d k = some v) : (k, v) ∈ d := by
  unfold dictGet at h
  rw [Option.map_eq_some_iff] at h
  obtain ⟨⟨k', v'⟩, h1, h2⟩ := h
  have := List.find?_some h1
  have h3 := List.mem_of_find?_eq_some h1
  simp only [decide_eq_true_eq] at this h2
  subst this h2
  exact h3

theorem dictGet_isSome {d : List (κ × β)} {k : κ} : (dictGet d k).isSome ↔ k ∈ keys d := by
  unfold dictGet keys
  rw [Option.isSome_map, List.find?_isSome, List.mem_map]
  simp only [decide_eq_true_eq]

theorem dictGet_eq_none {d : List (κ × β)} {k : κ} : dictGet d k = none ↔ k ∉ keys d := by
  rw [← dictGet_isSome, Option.not_isSome_iff_eq_none]

theorem mem_dictSet {d : List (κ × β)} {k : κ} {v : β} {e : κ × β} (h : e ∈ dictSet d k v) : e ∈ d ∨ e = (k, v) := by
  unfold dictSet at h
  split at h
  · rw [List.mem_map] at h
    obtain ⟨e', h1, h2⟩ := h
    split at h2
    · exact .inr h2.symm
    · exact .inl (h2 ▸ h1)
  · rw [List.mem_append, List.mem_singleton] at h
    exact h

theorem keys_dictSet (d : List (κ × β)) (k : κ) (v : β) :
    keys (dictSet d k v) = if k ∈ keys d then keys d else keys d ++ [k] := by
  have hany : (d.any fun e => decide (e.1 = k)) = decide (k ∈ keys d) := by
    rw [Bool.eq_iff_iff]
    unfold keys
    simp only [List.any_eq_true, decide_eq_true_eq, List.mem_map]
  unfold dictSet
  rw [hany]
  by_cases h : k ∈ keys d
  · simp only [h, decide_true, if_true]
    unfold keys
    rw [List.map_map]
    refine List.map_congr_left fun e _ => ?_
    simp only [Function.comp_apply]
    split
    · rename_i he; exact he.symm
    · rfl
  · simp only [h, decide_false, if_false]
    unfold keys
    simp

theorem dictSet_new (d : List (κ × β)) (k : κ) (v : β) (h : k ∉ keys d) : dictSet d k v = d ++ [(k, v)] := by
  have hany : ¬ (d.any fun e => decide (e.1 = k)) = true := by
    unfold keys at h
    simp only [List.any_eq_true, decide_eq_true_eq]
    rw [List.mem_map] at h
    exact h
  unfold dictSet
  rw [if_neg hany]

end Dict

/-! ### The invariant of the dictionaries -/

/-- The block holds the values of `f` on the grid. -/
def GoodBlock (F : MakerFn n) (degs : Fin n → ℕ) (block : Tensor n ℝ) : Prop :=
  (∀ i, 1 ≤ degs i) ∧ block.shape = (fun i => degs i + 1) ∧ ∀ j, (∀ i, j i ≤ degs i) → block.coef j = F.f (gridPt degs F.a F.b j)

/-- The result for the block of values. -/
def GoodFft (F : MakerFn n) (degs : Fin n → ℕ) (r : Tensor n ℝ × ℝ) : Prop := ∃ block, GoodBlock F degs block ∧ r = fftCoeffs degs block

structure MakerInv (F : MakerFn n) (st : MakerState n) : Prop where
  memo : ∀ e ∈ st.memo, GoodBlock F e.1 e.2
  fft : ∀ e ∈ st.fft, GoodFft F e.1 e.2
  keys : keys st.memo = keys st.fft

theorem makerInv_empty (F : MakerFn n) : MakerInv F ⟨[], []⟩ := ⟨by simp, by simp, rfl⟩

theorem gridValues_good (F : MakerFn n) (degs : Fin n → ℕ) (hd : ∀ i, 1 ≤ degs i) : GoodBlock F degs (gridValues F degs) :=
  ⟨hd, rfl, fun _ _ => rfl⟩

theorem halfValues_good (F : MakerFn n) (degs : Fin n → ℕ) (hd : ∀ i, 1 ≤ degs i) (h2 : ∀ i, 2 ∣ degs i) (half : Tensor n ℝ)
    (hh : GoodBlock F (fun i => degs i / 2) half) : GoodBlock F degs (halfValues F degs half) := by
  refine ⟨hd, rfl, fun j hj => ?_⟩
  unfold halfValues
  simp only
  by_cases hj2 : ∀ i, 2 ∣ j i
  · rw [if_pos hj2, hh.2.2 _ fun i => Nat.div_le_div_right (hj i)]
    congr 1
    unfold gridPt
    congr 1
    funext i
    unfold chebPt
    obtain ⟨d, hd'⟩ := h2 i
    obtain ⟨t, ht⟩ := hj2 i
    have e1 : j i / 2 = t := by omega
    have e2 : degs i / 2 = d := by omega
    beta_reduce
    rw [e1, e2, ht, hd']
    have : (d : ℝ) ≠ 0 := by
      have := hd i
      exact_mod_cast (show d ≠ 0 by omega)
    congr 1
    push_cast
    field_simp
  · rw [if_neg hj2]

/-- The degrees are accepted by the code: `evaluate_grid` needs equal degrees. -/
def GridOK (F : MakerFn n) (degs : Fin n → ℕ) : Prop := F.hasGrid = true → ∀ i j, degs i = degs j

theorem valuesBlock_good (F : MakerFn n) (degs : Fin n → ℕ) (hd : ∀ i, 1 ≤ degs i) (st : MakerState n) (hst : MakerInv F st) :
    (GridOK F degs → ∃ block, valuesBlock F degs st = .ok block ∧ GoodBlock F degs block) ∧
      (¬ GridOK F degs → valuesBlock F degs st = .error .columnStack) := by
  unfold GridOK valuesBlock
  cases hg : F.hasGrid with
  | true =>
    simp only [if_true]
    refine ⟨fun h => ?_, fun h => ?_⟩
    · rw [if_pos (h trivial)]
      exact ⟨_, rfl, gridValues_good F degs hd⟩
    · rw [if_neg]
      exact fun h' => h fun _ => h'
  | false =>
    refine ⟨fun _ => ?_, fun h => absurd (fun h => by simp at h) h⟩
    rw [if_neg (by simp)]
    cases hm : dictGet st.memo degs with
    | some block => exact ⟨_, rfl, hst.memo _ (dictGet_mem hm)⟩
    | none =>
      by_cases h2 : ∀ i, 2 ∣ degs i
      · simp only [if_pos h2]
        cases hh : dictGet st.memo fun i => degs i / 2 with
        | some half => exact ⟨_, rfl, halfValues_good F degs hd h2 half (hst.memo _ (dictGet_mem hh))⟩
        | none => exact ⟨_, rfl, gridValues_good F degs hd⟩
      · simp only [if_neg h2]
        exact ⟨_, rfl, gridValues_good F degs hd⟩

/-- The keys after a call. -/
def addKey (l : List (Fin n → ℕ)) (degs : Fin n → ℕ) : List (Fin n → ℕ) := if degs ∈ l then l else l ++ [degs]

theorem makerApprox_good (F : MakerFn n) (degs : Fin n → ℕ) (hd : ∀ i, 1 ≤ degs i) (st : MakerState n) (hst : MakerInv F st) :
    (GridOK F degs ∨ degs ∈ keys st.memo → ∃ r st', makerApprox F degs st = .ok (r, st') ∧ GoodFft F degs r ∧ MakerInv F st' ∧
        keys st'.memo = addKey (keys st.memo) degs) ∧
      (¬ GridOK F degs → degs ∉ keys st.memo → makerApprox F degs st = .error .columnStack) := by
  unfold makerApprox addKey
  cases hf : dictGet st.fft degs with
  | some r =>
    have hk : degs ∈ keys st.memo := by
      rw [hst.keys, ← dictGet_isSome, hf]
      rfl
    refine ⟨fun _ => ⟨r, st, rfl, hst.fft _ (dictGet_mem hf), hst, by rw [if_pos hk]⟩, fun _ h => absurd hk h⟩
  | none =>
    have hk : degs ∉ keys st.memo := by rwa [hst.keys, ← dictGet_eq_none]
    obtain ⟨h1, h2⟩ := valuesBlock_good F degs hd st hst
    refine ⟨fun h => ?_, fun h _ => by simp only [h2 h]⟩
    obtain ⟨block, hb, hg⟩ := h1 (h.resolve_right hk)
    simp only [hb]
    refine ⟨_, _, rfl, ⟨block, hg, rfl⟩, ⟨?_, ?_, ?_⟩, ?_⟩
    · intro e he
      rcases mem_dictSet he with he | rfl
      · exact hst.memo e he
      · exact hg
    · intro e he
      rcases mem_dictSet he with he | rfl
      · exact hst.fft e he
      · exact ⟨block, hg, rfl⟩
    · simp only [keys_dictSet, hst.keys]
    · simp only [keys_dictSet]

theorem GoodFft.coeffs {F : MakerFn n} {degs : Fin n → ℕ} {r : Tensor n ℝ × ℝ} (h : GoodFft F degs r) :
    r.1 = (intervalApproximate F.f degs F.a F.b).coeffs := by
  obtain ⟨block, hb, rfl⟩ := h
  exact fftCoeffs_eq F degs hb.1 block hb.2.2

theorem GoodFft.norm {F : MakerFn n} {degs : Fin n → ℕ} {r : Tensor n ℝ × ℝ} (h : GoodFft F degs r) :
    (∀ j, (∀ i, j i ≤ degs i) → |F.f (gridPt degs F.a F.b j)| ≤ r.2) ∧
      ∃ j, (∀ i, j i ≤ degs i) ∧ r.2 = |F.f (gridPt degs F.a F.b j)| := by
  obtain ⟨block, hb, rfl⟩ := h
  obtain ⟨h1, j, h2, h3⟩ := fftCoeffs_norm degs hb.1 block
  refine ⟨fun j hj => ?_, j, h2, ?_⟩
  · rw [← hb.2.2 j hj]; exact h1 j hj
  · rw [← hb.2.2 j h2]; exact h3

/-- The difference of two approximations is bounded by `get_err`. -/
theorem abs_sub_le_getErr (M M2 : Tensor n ℝ) (hs : ∀ i, M.shape i ≤ M2.shape i) (x : Fin n → ℝ) (hx : ∀ i, |x i| ≤ 1) :
    |M2.eval x - M.eval x| ≤ getErr M M2 := by
  have h1 : M.eval x = ∑ k ∈ M2.idx, (if ∀ i, k i < M.shape i then M.coef k else 0) * ∏ i, chebT (k i) (x i) := by
    unfold Tensor.eval
    have hsub : M.idx ⊆ M2.idx := by
      intro k hk
      unfold Tensor.idx at *
      rw [Fintype.mem_piFinset] at *
      exact fun i => mem_range.2 (lt_of_lt_of_le (mem_range.1 (hk i)) (hs i))
    rw [← Finset.sum_subset hsub]
    · refine Finset.sum_congr rfl fun k hk => ?_
      rw [if_pos]
      unfold Tensor.idx at hk
      rw [Fintype.mem_piFinset] at hk
      exact fun i => mem_range.1 (hk i)
    · intro k _ hk
      rw [if_neg, zero_mul]
      intro h
      apply hk
      unfold Tensor.idx
      rw [Fintype.mem_piFinset]
      exact fun i => mem_range.2 (h i)
  rw [h1]
  unfold Tensor.eval getErr
  rw [← Finset.sum_sub_distrib]
  refine (Finset.abs_sum_le_sum_abs _ _).trans (Finset.sum_le_sum fun k _ => ?_)
  rw [← sub_mul, abs_mul]
  have h2 : |∏ i, chebT (k i) (x i)| ≤ 1 := by
    rw [Finset.abs_prod]
    exact Finset.prod_le_one (fun _ _ => abs_nonneg _) fun i _ => abs_chebT_le_one _ (hx i)
  refine (mul_le_of_le_one_right (abs_nonneg _) h2).trans (le_of_eq ?_)
  congr 1
  split_ifs <;> simp

/-! ### The search for the degrees -/

/-- The interpolant of `f`. -/
noncomputable def interp (F : MakerFn n) (degs : Fin n → ℕ) : Tensor n ℝ := (intervalApproximate F.f degs F.a F.b).coeffs

theorem interp_shape (F : MakerFn n) (degs : Fin n → ℕ) : (interp F degs).shape = fun i => degs i + 1 := rfl

structure GoodCurrent (F : MakerFn n) (degs : Fin n → ℕ) (cur : Current n) : Prop where
  fft : GoodFft F degs (cur.M, cur.infNorm)
  M2 : cur.M2 = interp F fun i => 2 * degs i
  err : cur.err = getErr cur.M cur.M2

theorem GridOK.double {F : MakerFn n} {degs : Fin n → ℕ} (h : GridOK F degs) : GridOK F fun i => 2 * degs i := fun hg i j => by
  beta_reduce
  rw [h hg i j]

theorem makerCurrent_good (F : MakerFn n) (degs : Fin n → ℕ) (hd : ∀ i, 1 ≤ degs i) (hG : GridOK F degs) (st : MakerState n)
    (hst : MakerInv F st) :
    ∃ cur st', makerCurrent F degs st = .ok (cur, st') ∧ GoodCurrent F degs cur ∧ MakerInv F st' ∧
      keys st'.memo = addKey (addKey (keys st.memo) degs) fun i => 2 * degs i := by
  obtain ⟨r, st1, h1, g1, i1, k1⟩ := (makerApprox_good F degs hd st hst).1 (.inl hG)
  obtain ⟨r2, st2, h2, g2, i2, k2⟩ := (makerApprox_good F (fun i => 2 * degs i) (fun i => by have := hd i; omega) st1 i1).1
    (.inl hG.double)
  refine ⟨⟨r.1, r.2, r2.1, getErr r.1 r2.1⟩, st2, ?_, ⟨g1, g2.coeffs, rfl⟩, i2, by rw [k2, k1]⟩
  unfold makerCurrent
  simp only [h1, h2]

/-- The degrees of `test_M`. -/
def testDegs (degs : Fin n → ℕ) (i : Fin n) : Fin n → ℕ := fun j => if i ≠ j then degs j * 2 else degs j

theorem one_le_testDegs {degs : Fin n → ℕ} (hd : ∀ i, 1 ≤ degs i) (i j : Fin n) : 1 ≤ testDegs degs i j := by
  have := hd j
  unfold testDegs
  split_ifs <;> omega

/-- Direction `i` still has a significant error. -/
def Significant (F : MakerFn n) (relTol : ℝ) (degs : Fin n → ℕ) (cur : Current n) (i : Fin n) : Prop :=
  getErr (interp F (testDegs degs i)) cur.M2 > floatTol relTol cur.infNorm (interp F (testDegs degs i)) cur.M2

theorem dimsToExpand_good (F : MakerFn n) (relTol : ℝ) (maxDeg : ℕ) (degs : Fin n → ℕ) (hd : ∀ i, 1 ≤ degs i)
    (hG : ∀ degs, GridOK F degs) (cur : Current n) (l : List (Fin n)) (st : MakerState n) (hst : MakerInv F st) :
    ∃ dims st', dimsToExpand F relTol maxDeg degs cur l st = .ok (dims, st') ∧ MakerInv F st' ∧
      (∀ i, i ∈ dims ↔ i ∈ l ∧ degs i < maxDeg ∧ Significant F relTol degs cur i) ∧
      keys st'.memo = ((l.filter fun i => degs i < maxDeg).map (testDegs degs)).foldl addKey (keys st.memo) := by
  induction l generalizing st with
  | nil => exact ⟨[], st, rfl, hst, by simp, rfl⟩
  | cons i l ih =>
    unfold dimsToExpand
    by_cases hi : degs i ≥ maxDeg
    · rw [if_pos hi]
      obtain ⟨dims, st', h1, h2, h3, h4⟩ := ih st hst
      refine ⟨dims, st', h1, h2, fun j => ?_, ?_⟩
      · rw [h3, List.mem_cons]
        constructor
        · rintro ⟨a, b⟩; exact ⟨.inr a, b⟩
        · rintro ⟨a | a, b⟩
          · subst a; omega
          · exact ⟨a, b⟩
      · rw [h4, List.filter_cons, if_neg (by simpa using hi)]
    · rw [if_neg hi]
      obtain ⟨r, st1, h1, g1, i1, k1⟩ := (makerApprox_good F (testDegs degs i) (one_le_testDegs hd i) st hst).1 (.inl (hG _))
      obtain ⟨dims, st', h2, i2, h3, h4⟩ := ih st1 i1
      have hk : keys st'.memo = (((i :: l).filter fun i => degs i < maxDeg).map (testDegs degs)).foldl addKey (keys st.memo) := by
        rw [h4, k1, List.filter_cons, if_pos (by simpa using hi)]
        rfl
      have hr : r.1 = interp F (testDegs degs i) := g1.coeffs
      have h1' : makerApprox F (fun j => if i ≠ j then degs j * 2 else degs j) st = .ok (r, st1) := h1
      simp only [h1', h2]
      by_cases ht : Significant F relTol degs cur i
      · refine ⟨i :: dims, st', ?_, i2, fun j => ?_, hk⟩
        · rw [if_pos]
          rw [test_iff, hr]
          exact ht
        · rw [List.mem_cons, List.mem_cons, h3]
          constructor
          · rintro (rfl | ⟨a, b⟩)
            · exact ⟨.inl rfl, by omega, ht⟩
            · exact ⟨.inr a, b⟩
          · rintro ⟨rfl | a, b⟩
            · exact .inl rfl
            · exact .inr ⟨a, b⟩
      · refine ⟨dims, st', ?_, i2, fun j => ?_, hk⟩
        · rw [if_neg]
          rw [test_iff, hr]
          exact ht
        · rw [List.mem_cons, h3]
          constructor
          · rintro ⟨a, b⟩; exact ⟨.inr a, b⟩
          · rintro ⟨rfl | a, b⟩
            · exact absurd b.2 ht
            · exact ⟨a, b⟩

/-- The degrees of the next round. -/
def nextDegs (maxDeg : ℕ) (degs : Fin n → ℕ) (dims : List (Fin n)) : Fin n → ℕ :=
  fun i => if i ∈ dims then (if 2 * degs i < maxDeg then 2 * degs i else maxDeg) else degs i

/-- The keys after a round. -/
def roundKeys (maxDeg : ℕ) (degs : Fin n → ℕ) (dims : List (Fin n)) (ks : List (Fin n → ℕ)) : List (Fin n → ℕ) :=
  addKey (addKey ((((List.finRange n).filter fun i => degs i < maxDeg).map (testDegs degs)).foldl addKey ks)
    (nextDegs maxDeg degs dims)) fun i => 2 * nextDegs maxDeg degs dims i

/-- The reason to stop. -/
def Stopped (F : MakerFn n) (relTol : ℝ) (maxDeg : ℕ) (degs : Fin n → ℕ) (cur : Current n) : Prop :=
  cur.err < floatTol relTol cur.infNorm cur.M cur.M2 ∨ ∀ i, degs i < maxDeg → ¬ Significant F relTol degs cur i

theorem makerLoop_good (F : MakerFn n) (relTol : ℝ) (maxDeg : ℕ) (hG : ∀ degs, GridOK F degs)
    (Q : (Fin n → ℕ) → List (Fin n → ℕ) → Prop)
    (hQ0 : ∀ degs ks, Q degs ks → Q degs ((((List.finRange n).filter fun i => degs i < maxDeg).map (testDegs degs)).foldl addKey ks))
    (hQ : ∀ degs ks dims, (∀ i, 1 ≤ degs i) → (∀ i, degs i ≤ maxDeg) → dims ≠ [] → (∀ i ∈ dims, degs i < maxDeg) → Q degs ks →
      Q (nextDegs maxDeg degs dims) (roundKeys maxDeg degs dims ks))
    (fuel : ℕ) (degs : Fin n → ℕ) (hd : ∀ i, 1 ≤ degs i) (hm : ∀ i, degs i ≤ maxDeg) (hfuel : ∑ i, (maxDeg - degs i) < fuel)
    (cur : Current n) (hcur : GoodCurrent F degs cur) (st : MakerState n) (hst : MakerInv F st) (hq : Q degs (keys st.memo)) :
    ∃ degs' cur' st', makerLoop F relTol maxDeg fuel degs cur st = .ok (degs', cur', st') ∧ (∀ i, degs i ≤ degs' i) ∧
      (∀ i, degs' i ≤ maxDeg) ∧ GoodCurrent F degs' cur' ∧ MakerInv F st' ∧ Q degs' (keys st'.memo) ∧
      Stopped F relTol maxDeg degs' cur' := by
  induction fuel generalizing degs cur st with
  | zero => omega
  | succ fuel ih =>
    unfold makerLoop
    by_cases hany : ∃ i, degs i < maxDeg
    · rw [if_pos hany]
      by_cases ht : cur.err < floatTol relTol cur.infNorm cur.M cur.M2
      · rw [if_pos ((test_iff _).2 ht)]
        exact ⟨degs, cur, st, rfl, fun _ => le_rfl, hm, hcur, hst, hq, .inl ht⟩
      · rw [if_neg (by rwa [test_iff])]
        obtain ⟨dims, st1, h1, i1, hmem, hk⟩ := dimsToExpand_good F relTol maxDeg degs hd hG cur (List.finRange n) st hst
        simp only [h1]
        by_cases hdims : dims = []
        · rw [if_neg (by simpa using hdims)]
          refine ⟨degs, cur, st1, rfl, fun _ => le_rfl, hm, hcur, i1, ?_, .inr fun i hi hs => ?_⟩
          · rw [hk]
            exact hQ0 degs _ hq
          · have := (hmem i).2 ⟨List.mem_finRange i, hi, hs⟩
            rw [hdims] at this
            simp at this
        · rw [if_pos hdims]
          have hlt : ∀ i ∈ dims, degs i < maxDeg := fun i hi => ((hmem i).1 hi).2.1
          have hge : ∀ i, degs i ≤ nextDegs maxDeg degs dims i := by
            intro i
            unfold nextDegs
            have := hm i
            split_ifs <;> omega
          have hle : ∀ i, nextDegs maxDeg degs dims i ≤ maxDeg := by
            intro i
            unfold nextDegs
            have := hm i
            split_ifs <;> omega
          have h1le : ∀ i, 1 ≤ nextDegs maxDeg degs dims i := fun i => (hd i).trans (hge i)
          obtain ⟨cur', st2, h2, g2, i2, k2⟩ := makerCurrent_good F (nextDegs maxDeg degs dims) h1le (hG _) st1 i1
          have h2' : makerCurrent F (fun i => if i ∈ dims then (if 2 * degs i < maxDeg then 2 * degs i else maxDeg) else degs i) st1 =
            .ok (cur', st2) := h2
          simp only [h2']
          obtain ⟨i0, hi0⟩ := List.exists_mem_of_ne_nil dims hdims
          have hsum : ∑ i, (maxDeg - nextDegs maxDeg degs dims i) < ∑ i, (maxDeg - degs i) := by
            refine Finset.sum_lt_sum (fun i _ => by have := hge i; omega) ⟨i0, mem_univ _, ?_⟩
            have e := hlt i0 hi0
            have e1 := hd i0
            have : degs i0 < nextDegs maxDeg degs dims i0 := by
              unfold nextDegs
              rw [if_pos hi0]
              split_ifs <;> omega
            omega
          have hq' : Q (nextDegs maxDeg degs dims) (keys st2.memo) := by
            rw [k2, hk]
            exact hQ degs _ dims hd hm hdims hlt hq
          obtain ⟨degs', cur'', st', r1, r2, r3⟩ := ih (nextDegs maxDeg degs dims) h1le hle (by omega) cur' g2 st2 i2 hq'
          exact ⟨degs', cur'', st', r1, fun i => (hge i).trans (r2 i), r3⟩
    · rw [if_neg hany]
      refine ⟨degs, cur, st, rfl, fun _ => le_rfl, hm, hcur, hst, hq, .inr fun i hi => absurd ⟨i, hi⟩ hany⟩

end YRoots.Legacy
