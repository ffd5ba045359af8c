import Verif.Model.TrimCoeffs
import Verif.Proofs.MonCombos
import Verif.Proofs.Trim
import Mathlib.Algebra.BigOperators.Fin
import Mathlib.Tactic.Linarith

/-!
# Helper lemmas: trimming to a triangular coefficient array
-/

set_option linter.unusedSectionVars false
set_option linter.unusedVariables false
set_option linter.unusedSimpArgs false

namespace YRoots.Legacy

open Finset

variable {n : ℕ} {K : Type*} [Field K] [LinearOrder K] [IsStrictOrderedRing K]

theorem getD_ofFn (k : Fin n → ℕ) (i : Fin n) : (List.ofFn k).getD i 0 = k i := by
  rw [List.getD_eq_getElem _ _ (by simp)]; simp

theorem fn_of_list (m : List ℕ) (h : m.length = n) : List.ofFn (fun i : Fin n => m.getD i 0) = m := by
  subst h
  refine List.ext_getElem (by simp) fun k h1 h2 => ?_
  rw [List.getElem_ofFn, List.getD_eq_getElem _ _ h2]

theorem mem_wrap (hn : 1 ≤ n) {shape : List ℕ} (hs : ∀ k < n, 0 < shape.getD k 0) (deg : ℕ) (m : List ℕ) :
    m ∈ monCombosLimitedWrap deg n shape ↔ m.length = n ∧ (∀ k < n, m.getD k 0 < shape.getD k 0) ∧ m.sum = deg := by
  have := (limited_spec shape (n - 1) (List.replicate n 0) deg 0 (by simp; omega)
    (fun _ k _ => by
      by_cases hk : k < n
      · rw [List.getD_eq_getElem _ _ (by simpa using hk)]; simp
      · exact getD_beyond _ _ (by simp; omega)) (fun k _ hk => hs k (by simpa using hk))).1 m
  unfold monCombosLimitedWrap
  rw [this]
  unfold Tail TailLim
  simp only [List.length_replicate, Nat.not_lt_zero, IsEmpty.forall_iff, implies_true, true_and, Nat.zero_le, List.drop_zero,
    forall_const]
  constructor
  · rintro ⟨h1, h2, h3⟩; exact ⟨h1, fun k hk => h2 k (by omega), h3⟩
  · rintro ⟨h1, h2, h3⟩; exact ⟨h1, fun k hk => h2 k (by omega), h3⟩

theorem nodup_wrap (hn : 1 ≤ n) {shape : List ℕ} (hs : ∀ k < n, 0 < shape.getD k 0) (deg : ℕ) :
    (monCombosLimitedWrap deg n shape).Nodup :=
  (limited_spec shape (n - 1) (List.replicate n 0) deg 0 (by simp; omega)
    (fun _ k _ => by
      by_cases hk : k < n
      · rw [List.getD_eq_getElem _ _ (by simpa using hk)]; simp
      · exact getD_beyond _ _ (by simp; omega)) (fun k _ hk => hs k (by simpa using hk))).2.1

theorem shapeList_pos {M : Tensor n K} (hM : M.Nonempty) : ∀ k < n, 0 < (shapeList M).getD k 0 := fun k hk => by
  have := getD_ofFn M.shape ⟨k, hk⟩
  unfold shapeList
  rw [this]; exact hM _

theorem ofFn_mem_wrap (hn : 1 ≤ n) {M : Tensor n K} (hM : M.Nonempty) (deg : ℕ) (k : Fin n → ℕ) :
    List.ofFn k ∈ monCombosLimitedWrap deg n (shapeList M) ↔ k ∈ M.idx ∧ ∑ i, k i = deg := by
  rw [mem_wrap hn (shapeList_pos hM)]
  simp only [List.length_ofFn, true_and, List.sum_ofFn]
  refine and_congr_left fun _ => ?_
  unfold Tensor.idx
  simp only [Fintype.mem_piFinset, mem_range]
  constructor
  · intro h i
    have := h i i.2
    unfold shapeList at this
    rwa [getD_ofFn, getD_ofFn] at this
  · intro h i hi
    have := h ⟨i, hi⟩
    unfold shapeList
    rwa [← getD_ofFn k ⟨i, hi⟩, ← getD_ofFn M.shape ⟨i, hi⟩] at this

theorem wrap_sum (hn : 1 ≤ n) {M : Tensor n K} (hM : M.Nonempty) {deg : ℕ} {m : List ℕ}
    (h : m ∈ monCombosLimitedWrap deg n (shapeList M)) : m.sum = deg :=
  ((mem_wrap hn (shapeList_pos hM) deg m).1 h).2.2

theorem mem_initialMons (hn : 1 ≤ n) {M : Tensor n K} (hM : M.Nonempty) (k : Fin n → ℕ) :
    List.ofFn k ∈ initialMons M ↔ k ∈ M.idx ∧ M.shape ⟨0, hn⟩ ≤ ∑ i, k i ∧ ∑ i, k i ≤ ∑ i, M.shape i - n - 1 := by
  unfold initialMons
  have e0 : (shapeList M).getD 0 0 = M.shape ⟨0, hn⟩ := getD_ofFn M.shape ⟨0, hn⟩
  have e1 : (shapeList M).sum = ∑ i, M.shape i := by unfold shapeList; rw [List.sum_ofFn]
  have hp := hM ⟨0, hn⟩
  rw [List.mem_flatMap, e0, e1]
  constructor
  · rintro ⟨deg, hd, h⟩
    obtain ⟨h1, h2⟩ := (ofFn_mem_wrap hn hM deg k).1 h
    rw [List.mem_range'_1] at hd
    exact ⟨h1, by omega, by omega⟩
  · rintro ⟨h1, h2, h3⟩
    exact ⟨∑ i, k i, by rw [List.mem_range'_1]; omega, (ofFn_mem_wrap hn hM _ k).2 ⟨h1, rfl⟩⟩

theorem nodup_initialMons (hn : 1 ≤ n) {M : Tensor n K} (hM : M.Nonempty) : (initialMons M).Nodup := by
  unfold initialMons
  rw [List.nodup_flatMap]
  refine ⟨fun deg _ => nodup_wrap hn (shapeList_pos hM) deg, ?_⟩
  refine List.Pairwise.imp ?_ (List.nodup_range' (step := 1))
  intro a b hab m h1 h2
  exact hab ((wrap_sum hn hM h1).symm.trans (wrap_sum hn hM h2))

theorem sum_le_sliceSum (M : Tensor n K) (mons : List (List ℕ)) (hd : mons.Nodup) :
    ∑ k ∈ M.idx.filter (fun k => mons = [] ∨ List.ofFn k ∈ mons), |M.coef k| ≤ sliceSum M mons := by
  unfold sliceSum
  by_cases h : mons = []
  · rw [if_pos h]
    unfold Tensor.absSum
    exact sum_le_sum_of_subset_of_nonneg (filter_subset _ _) fun _ _ _ => abs_nonneg _
  · rw [if_neg h, ← List.sum_toFinset _ hd]
    have e : ∑ k ∈ M.idx.filter (fun k => mons = [] ∨ List.ofFn k ∈ mons), |M.coef k|
        = ∑ m ∈ (M.idx.filter (fun k => mons = [] ∨ List.ofFn k ∈ mons)).image (fun k => List.ofFn k),
          |M.coef fun i => m.getD i 0| := by
      rw [sum_image fun a _ b _ hab => List.ofFn_injective hab]
      refine sum_congr rfl fun k _ => ?_
      congr 2
      funext i
      exact (getD_ofFn k i).symm
    rw [e]
    refine sum_le_sum_of_subset_of_nonneg (fun m hm => ?_) fun _ _ _ => abs_nonneg _
    obtain ⟨k, hk, rfl⟩ := mem_image.1 hm
    rw [mem_filter] at hk
    rw [List.mem_toFinset]
    exact hk.2.resolve_left h

theorem zeroAt_eval (M : Tensor n K) (mons : List (List ℕ)) (hd : mons.Nodup) {x : Fin n → K} (hx : InCube x) :
    |M.eval x - (zeroAt M mons).eval x| ≤ sliceSum M mons := by
  refine le_trans ?_ (sum_le_sliceSum M mons hd)
  unfold Tensor.eval
  have e : (zeroAt M mons).idx = M.idx := rfl
  rw [e, ← sum_sub_distrib, sum_filter]
  refine (abs_sum_le_sum_abs _ _).trans (sum_le_sum fun k _ => ?_)
  show |M.coef k * _ - (if mons = [] ∨ List.ofFn k ∈ mons then 0 else M.coef k) * _| ≤ _
  by_cases h : mons = [] ∨ List.ofFn k ∈ mons
  · rw [if_pos h, if_pos h, zero_mul, sub_zero, abs_mul]
    exact mul_le_of_le_one_right (abs_nonneg _) (prod_chebT_abs_le k hx)
  · rw [if_neg h, if_neg h, sub_self, abs_zero]

theorem truncate_eval (M : Tensor n K) (d : ℕ) (h : ∀ k ∈ M.idx, d < ∑ i, k i → M.coef k = 0) (x : Fin n → K) :
    (truncate M d).eval x = M.eval x := by
  unfold Tensor.eval
  refine sum_subset (fun k hk => ?_) fun k hk hk2 => ?_
  · unfold Tensor.idx truncate at *
    simp only [Fintype.mem_piFinset, mem_range, lt_min_iff] at *
    exact fun i => (hk i).1
  · show M.coef k * _ = 0
    rw [h k hk ?_, zero_mul]
    by_contra hc
    apply hk2
    unfold Tensor.idx truncate at *
    simp only [Fintype.mem_piFinset, mem_range, lt_min_iff] at *
    intro i
    refine ⟨hk i, ?_⟩
    have := single_le_sum (f := k) (fun _ _ => Nat.zero_le _) (mem_univ i)
    omega

theorem truncate_idx {M : Tensor n K} {d : ℕ} {k : Fin n → ℕ} (h : k ∈ (truncate M d).idx) : k ∈ M.idx := by
  unfold Tensor.idx truncate at *
  simp only [Fintype.mem_piFinset, mem_range, lt_min_iff] at *
  exact fun i => (h i).1

theorem sliceSum_nonneg (M : Tensor n K) (mons : List (List ℕ)) : 0 ≤ sliceSum M mons := by
  unfold sliceSum
  split_ifs
  · exact sum_nonneg fun _ _ => abs_nonneg _
  · refine List.sum_nonneg fun x hx => ?_
    obtain ⟨m, _, rfl⟩ := List.mem_map.1 hx
    exact abs_nonneg _

/-- What trimming promises about the array. -/
structure TrimSpec (hn : 1 ≤ n) (T : K) (M : Tensor n K) (err : K) (r : Tensor n K × K) : Prop where
  mono : err ≤ r.2
  bound : ∀ x, InCube x → |M.eval x - r.1.eval x| ≤ r.2 - err
  tol : r.2 ≤ T
  shape : ∀ i, 0 < r.1.shape i ∧ r.1.shape i ≤ M.shape i
  low : ∀ k ∈ r.1.idx, r.1.coef k ≠ 0 → ∑ i, k i < r.1.shape ⟨0, hn⟩

theorem trimLoop_spec (hn : 1 ≤ n) (T : K) : ∀ (d : ℕ) (M : Tensor n K) (err : K), M.Nonempty → err ≤ T →
    d ≤ M.shape ⟨0, hn⟩ - 1 → (d ≤ 1 → M.shape ⟨0, hn⟩ = d + 1) →
    (∀ k ∈ M.idx, d < ∑ i, k i → M.coef k = 0) → TrimSpec hn T M err (trimLoop T d M err) := by
  have stop : ∀ (d : ℕ) (M : Tensor n K) (err : K), M.Nonempty → err ≤ T → M.shape ⟨0, hn⟩ = d + 1 →
      (∀ k ∈ M.idx, d < ∑ i, k i → M.coef k = 0) → TrimSpec hn T M err (M, err) := by
    intro d M err hM he hs hz
    refine ⟨le_rfl, fun x _ => by simp, he, fun i => ⟨hM i, le_rfl⟩, fun k hk hne => ?_⟩
    show _ < M.shape _
    by_contra hc
    exact hne (hz k hk (by omega))
  have cut : ∀ (d : ℕ) (M : Tensor n K) (err : K), M.Nonempty → err ≤ T → d ≤ M.shape ⟨0, hn⟩ - 1 →
      (∀ k ∈ M.idx, d < ∑ i, k i → M.coef k = 0) → TrimSpec hn T M err (truncate M d, err) := by
    intro d M err hM he hs hz
    refine ⟨le_rfl, fun x _ => by simp [truncate_eval M d hz], he, fun i => ⟨?_, min_le_left _ _⟩, fun k hk hne => ?_⟩
    · have := hM i
      show 0 < min _ _
      omega
    · have hp := hM ⟨0, hn⟩
      show _ < min (M.shape _) _
      rw [min_eq_right (by omega)]
      by_contra hc
      exact hne (hz k (truncate_idx hk) (by omega))
  intro d
  induction d with
  | zero =>
    intro M err hM he hs h1 hz
    unfold trimLoop
    exact stop 0 M err hM he (h1 (by omega)) hz
  | succ d ih =>
    intro M err hM he hs h1 hz
    cases d with
    | zero =>
      unfold trimLoop
      exact stop 1 M err hM he (h1 (by omega)) hz
    | succ d =>
      have e0 : (shapeList M).getD 0 0 = M.shape ⟨0, hn⟩ := getD_ofFn M.shape ⟨0, hn⟩
      have hp := hM ⟨0, hn⟩
      unfold trimLoop
      simp only [e0]
      generalize hmons : monCombosLimitedWrap (d + 2) n (shapeList M) = mons
      have hnd : mons.Nodup := hmons ▸ nodup_wrap hn (shapeList_pos hM) _
      have hz' : ∀ k ∈ (zeroAt M mons).idx, d + 1 < ∑ i, k i → (zeroAt M mons).coef k = 0 := by
        intro k hk hkd
        show (if mons = [] ∨ List.ofFn k ∈ mons then 0 else M.coef k) = 0
        by_cases hkm : ∑ i, k i = d + 2
        · refine if_pos (.inr ?_)
          rw [← hmons]
          exact (ofFn_mem_wrap hn hM _ k).2 ⟨hk, hkm⟩
        · have : M.coef k = 0 := hz k hk (by omega)
          rw [this]; simp
      have lift : ∀ r, TrimSpec hn T (zeroAt M mons) (err + sliceSum M mons) r → TrimSpec hn T M err r := by
        intro r h
        have hs0 := sliceSum_nonneg M mons
        refine ⟨by linarith [h.mono], fun x hx => ?_, h.tol, h.shape, h.low⟩
        have a := zeroAt_eval M mons hnd hx
        have b := h.bound x hx
        calc _ = |(M.eval x - (zeroAt M mons).eval x) + ((zeroAt M mons).eval x - r.1.eval x)| := by congr 1; ring
          _ ≤ _ := abs_add_le _ _
          _ ≤ _ := by linarith
      by_cases c1 : T < sliceSum M mons + err
      · rw [if_pos c1]
        by_cases c2 : d + 2 < M.shape ⟨0, hn⟩ - 1
        · rw [if_pos c2]
          exact cut _ M err hM he (by omega) hz
        · rw [if_neg c2]
          exact stop (d + 2) M err hM he (by omega) hz
      · rw [if_neg c1]
        have he' : err + sliceSum M mons ≤ T := by rw [add_comm]; exact not_lt.1 c1
        by_cases c2 : d + 1 = 1
        · rw [if_pos c2]
          refine lift _ (cut 1 (zeroAt M mons) _ hM he' (show 1 ≤ M.shape _ - 1 by omega) ?_)
          rwa [c2] at hz'
        · rw [if_neg c2]
          exact lift _ (ih (zeroAt M mons) _ hM he' (show d + 1 ≤ M.shape _ - 1 by omega) (fun h => by omega) hz')

theorem trimOne_spec (hn : 1 ≤ n) (T : K) (M : Tensor n K) (err : K) (hM : M.Nonempty)
    (hc : M.coef (fun i => M.shape i - 1) = 0 ∨ ∑ i, (M.shape i - 1) ≤ M.shape ⟨0, hn⟩) :
    ((trimOne T M err).2.2 = true → TrimSpec hn T M err ((trimOne T M err).1, (trimOne T M err).2.1)) ∧
    ((trimOne T M err).2.2 = false → (trimOne T M err).1 = M ∧ err ≤ (trimOne T M err).2.1 ∧ T < (trimOne T M err).2.1) := by
  have e0 : (shapeList M).getD 0 0 = M.shape ⟨0, hn⟩ := getD_ofFn M.shape ⟨0, hn⟩
  have hp := hM ⟨0, hn⟩
  unfold trimOne
  simp only [e0]
  generalize hmons : initialMons M = mons
  have hnd : mons.Nodup := hmons ▸ nodup_initialMons hn hM
  have hs0 := sliceSum_nonneg M mons
  by_cases c1 : T < err + sliceSum M mons
  · rw [if_pos c1]
    exact ⟨fun h => by simp at h, fun _ => ⟨rfl, by show err ≤ err + _; linarith, c1⟩⟩
  · rw [if_neg c1]
    refine ⟨fun _ => ?_, fun h => by simp at h⟩
    have hsum : ∑ i, M.shape i = ∑ i, (M.shape i - 1) + n := by
      have : ∀ i, M.shape i = (M.shape i - 1) + 1 := fun i => by have := hM i; omega
      calc ∑ i, M.shape i = ∑ i, ((M.shape i - 1) + 1) := sum_congr rfl fun i _ => this i
        _ = _ := by rw [sum_add_distrib]; simp
    have hz : ∀ k ∈ (zeroAt M mons).idx, M.shape ⟨0, hn⟩ - 1 < ∑ i, k i → (zeroAt M mons).coef k = 0 := by
      intro k hk hkd
      show (if mons = [] ∨ List.ofFn k ∈ mons then 0 else M.coef k) = 0
      by_cases hm : mons = []
      · rw [if_pos (.inl hm)]
      have hk' : ∀ i, k i < M.shape i := by
        have : k ∈ M.idx := hk
        unfold Tensor.idx at this
        simpa using this
      have hle : ∀ i ∈ univ, k i ≤ M.shape i - 1 := fun i _ => by have := hk' i; omega
      by_cases htop : ∑ i, k i = ∑ i, (M.shape i - 1)
      · have hk2 : k = fun i => M.shape i - 1 := by
          funext i
          exact (sum_eq_sum_iff_of_le hle).1 htop i (mem_univ i)
        rcases hc with hc | hc
        · rw [hk2, hc]; simp
        · exfalso
          apply hm
          rw [← hmons]
          unfold initialMons
          have e1 : (shapeList M).sum = ∑ i, M.shape i := by unfold shapeList; rw [List.sum_ofFn]
          rw [e0, e1, show (∑ i, M.shape i - n - 1) + 1 - M.shape ⟨0, hn⟩ = 0 by omega]
          simp
      · have := sum_le_sum hle
        refine if_pos (.inr ?_)
        rw [← hmons]
        exact (mem_initialMons hn hM k).2 ⟨hk, by omega, by omega⟩
    have h := trimLoop_spec hn T (M.shape ⟨0, hn⟩ - 1) (zeroAt M mons) (err + sliceSum M mons) hM (not_lt.1 c1)
      le_rfl (fun h => show M.shape _ = _ by omega) hz
    refine ⟨by linarith [h.mono], fun x hx => ?_, h.tol, h.shape, h.low⟩
    have a := zeroAt_eval M mons hnd hx
    have b := h.bound x hx
    have c := abs_add_le (M.eval x - (zeroAt M mons).eval x) ((zeroAt M mons).eval x -
      (trimLoop T (M.shape ⟨0, hn⟩ - 1) (zeroAt M mons) (err + sliceSum M mons)).1.eval x)
    rw [sub_add_sub_cancel] at c
    show _ ≤ (trimLoop T (M.shape ⟨0, hn⟩ - 1) (zeroAt M mons) (err + sliceSum M mons)).2 - err
    have b' : _ ≤ (trimLoop T (M.shape ⟨0, hn⟩ - 1) (zeroAt M mons) (err + sliceSum M mons)).2 - (err + sliceSum M mons) := b
    linarith

end YRoots.Legacy
