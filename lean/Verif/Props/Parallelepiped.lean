import Verif.Model.Parallelepiped
import Verif.Props.SolveLinear
import Verif.Proofs.PivotQR
import Mathlib.LinearAlgebra.Matrix.Orthogonal
import Mathlib.Data.Fin.Tuple.Basic
import Mathlib.Tactic.LinearCombination

/-!
# C71: `bounding_parallelepiped` covers the intersection
-/

namespace YRoots.Legacy

open Finset Matrix

variable {n : ℕ} {K : Type*} [Field K] [LinearOrder K]

/-! ### Specification -/

/-- What is assumed of the QR factorisation with pivoting (LAPACK `geqp3`): `A P = Q R` with `Q` orthogonal, `R` upper triangular, and
every entry on the diagonal dominates the rest of the columns that are still to be treated. -/
structure ProjLib.Correct (L : ProjLib n K) : Prop where
  orth : ∀ {m : ℕ} (A : Matrix (Fin (n + 1)) (Fin m) K), (L.qrQ A)ᵀ * L.qrQ A = 1
  factor : ∀ {m : ℕ} (A : Matrix (Fin (n + 1)) (Fin m) K), L.qrQ A * L.qrR A = A.submatrix id (L.qrP A)
  upper : ∀ {m : ℕ} (A : Matrix (Fin (n + 1)) (Fin m) K) (i : Fin (n + 1)) (j : Fin m), j.1 < i.1 → L.qrR A i j = 0
  pivot : ∀ {m : ℕ} (A : Matrix (Fin (n + 1)) (Fin m) K) (k : Fin (n + 1)) (k' j : Fin m), k.1 = k'.1 → k' ≤ j →
    ∑ i ∈ univ.filter (k ≤ ·), L.qrR A i j ^ 2 ≤ L.qrR A k k' ^ 2
  plain : ∀ A : Matrix (Fin (n + 1)) (Fin (n + 1)) K, (L.qr A)ᵀ * L.qr A = 1 ∧
    ∃ R : Matrix (Fin (n + 1)) (Fin (n + 1)) K, (∀ i j, j < i → R i j = 0) ∧ L.qr A * R = A

/-- The points of the parallelepiped with the vertex `p` and the edges in the columns of `E`. -/
def inParallelepiped (p : Fin (n + 1) → K) (E : Matrix (Fin (n + 1)) (Fin n) K) (x : Fin (n + 1) → K) : Prop :=
  ∃ t : Fin n → K, (∀ k, 0 ≤ t k ∧ t k ≤ 1) ∧ ∀ i, x i = p i + ∑ k, E i k * t k

/-! ### Helper lemmas -/

variable [IsStrictOrderedRing K]

theorem mem_signTuples {m : ℕ} {t : Fin m → K} : t ∈ signTuples m ↔ ∀ i, t i = -1 ∨ t i = 1 := by
  induction m with
  | zero => simp [signTuples]; exact funext fun i => i.elim0
  | succ m ih =>
    simp only [signTuples, List.mem_flatMap, List.mem_map, ih, List.mem_cons, List.not_mem_nil, or_false]
    constructor
    · rintro ⟨s, hs, u, hu, rfl⟩ i
      refine Fin.cases ?_ (fun j => ?_) i
      · simpa using hs
      · simpa using hu j
    · intro h
      exact ⟨t 0, h 0, Fin.tail t, fun i => h i.succ, Fin.cons_self_tail t⟩

theorem foldl_val (l : List (Fin n)) (i : Fin n) (c pt : Fin n → K) (v : K) :
    l.foldl (fun val j => if i = j then val else val - c j * pt j) v = v - (l.map fun j => if i = j then 0 else c j * pt j).sum := by
  induction l generalizing v with
  | nil => simp
  | cons a l ih =>
    rw [List.foldl_cons, ih, List.map_cons, List.sum_cons]
    split_ifs <;> ring

theorem mem_edgePoints {const : K} {c : Fin (n + 1) → K} {i : Fin (n + 1)} {x : Fin (n + 1) → K} :
    x ∈ edgePoints const c i ↔ 1 / 10 ^ 8 < |c i| ∧ (∀ j, j ≠ i → x j = -1 ∨ x j = 1) ∧ |x i| ≤ 1 ∧ const + ∑ j, c j * x j = 0 := by
  unfold edgePoints
  split_ifs with h
  · exact ⟨fun hh => by simp at hh, fun hh => absurd hh.1 (not_lt.2 h)⟩
  · rw [not_le] at h
    have hc : c i ≠ 0 := fun e => by
      rw [e, abs_zero] at h
      exact absurd h (not_lt.2 (by positivity))
    simp only [List.mem_filter, List.mem_map, mem_signTuples, foldl_val, h, true_and]
    have hsum : ∀ y : Fin (n + 1) → K, ((List.finRange (n + 1)).map fun j => if i = j then 0 else c j * y j).sum =
        ∑ j, c j * y j - c i * y i := by
      intro y
      rw [← List.ofFn_eq_map, List.sum_ofFn, ← Finset.sum_erase_eq_sub (Finset.mem_univ i), ← Finset.add_sum_erase _ _ (Finset.mem_univ i),
        if_pos rfl, zero_add]
      exact Finset.sum_congr rfl fun j hj => if_neg fun e => (Finset.mem_erase.1 hj).1 e.symm
    constructor
    · rintro ⟨⟨t, ht, rfl⟩, hb⟩
      set y : Fin (n + 1) → K := i.insertNth 0 t with hy
      simp only [Bool.decide_and, Bool.and_eq_true, decide_eq_true_eq] at hb
      refine ⟨fun j hj => ?_, abs_le.2 ⟨hb.1 i, hb.2 i⟩, ?_⟩
      · obtain ⟨k, rfl⟩ := Fin.exists_succAbove_eq hj
        simpa [hy, Function.update_of_ne hj] using ht k
      · rw [hsum, ← Finset.add_sum_erase _ _ (Finset.mem_univ i), Function.update_self]
        have : ∑ j ∈ univ.erase i, c j * Function.update y i ((-const - (∑ j, c j * y j - c i * y i)) / c i) j =
            ∑ j ∈ univ.erase i, c j * y j :=
          Finset.sum_congr rfl fun j hj => by rw [Function.update_of_ne (Finset.mem_erase.1 hj).1]
        rw [this, Finset.sum_erase_eq_sub (Finset.mem_univ i)]
        field_simp
        ring
    · rintro ⟨h1, h2, h3⟩
      have hx : Function.update (i.insertNth (0 : K) (i.removeNth x) : Fin (n + 1) → K) i
          ((-const - (∑ j, c j * x j - c i * x i)) / c i) = x := by
        funext j
        by_cases hj : j = i
        · subst hj
          rw [Function.update_self, div_eq_iff hc]
          linear_combination -h3
        · rw [Function.update_of_ne hj]
          obtain ⟨k, rfl⟩ := Fin.exists_succAbove_eq hj
          simp [Fin.removeNth]
      refine ⟨⟨i.removeNth x, fun k => h1 _ (Fin.succAbove_ne i k), ?_⟩, ?_⟩
      · rw [hsum]
        have : ∑ j, c j * (i.insertNth (0 : K) (i.removeNth x) : Fin (n + 1) → K) j -
            c i * (i.insertNth (0 : K) (i.removeNth x) : Fin (n + 1) → K) i = ∑ j, c j * x j - c i * x i := by
          rw [← Finset.sum_erase_eq_sub (Finset.mem_univ i), ← Finset.sum_erase_eq_sub (Finset.mem_univ i)]
          refine Finset.sum_congr rfl fun j hj => ?_
          obtain ⟨k, rfl⟩ := Fin.exists_succAbove_eq (Finset.mem_erase.1 hj).1
          simp [Fin.removeNth]
        rw [this]
        exact hx
      · have hb : ∀ j, |x j| ≤ 1 := fun j => by
          by_cases hj : j = i
          · rw [hj]; exact h2
          · rcases h1 j hj with e | e <;> simp [e]
        simp only [Bool.decide_and, Bool.and_eq_true, decide_eq_true_eq]
        exact ⟨fun j => (abs_le.1 (hb j)).1, fun j => (abs_le.1 (hb j)).2⟩

/-- Going from `x` in a direction supported on the coordinates that are not at the boundary, one reaches a new face. -/
theorem push_face {m : ℕ} {x d : Fin m → K} (hx : ∀ i, |x i| ≤ 1) (hd : ∀ i, d i ≠ 0 → |x i| ≠ 1) (hne : ∃ i, d i ≠ 0) :
    ∃ s > 0, (∀ i, |x i + s * d i| ≤ 1) ∧
      (univ.filter fun i => |x i + s * d i| ≠ 1).card < (univ.filter fun i => |x i| ≠ 1).card := by
  set r : Fin m → K := fun i => (1 - x i * (if 0 < d i then 1 else -1)) / |d i| with hr
  obtain ⟨i₀, hi₀⟩ := hne
  obtain ⟨i, hi, hmin⟩ := Finset.exists_min_image (univ.filter fun i => d i ≠ 0) r ⟨i₀, by simpa using hi₀⟩
  have hi' : d i ≠ 0 := by simpa using hi
  have hstrict : ∀ j, |x j| ≠ 1 → -1 < x j ∧ x j < 1 := fun j hj => abs_lt.1 (lt_of_le_of_ne (hx j) hj)
  have hpos : ∀ j, d j ≠ 0 → 0 < r j := fun j hj => by
    have := hstrict j (hd j hj)
    refine div_pos ?_ (abs_pos.2 hj)
    split_ifs <;> linarith
  have hrd : ∀ j, d j ≠ 0 → r j * |d j| = 1 - x j * (if 0 < d j then 1 else -1) := fun j hj => by
    rw [hr]; field_simp
  have hcube : ∀ j, |x j + r i * d j| ≤ 1 := by
    intro j
    by_cases hj : d j = 0
    · simpa [hj] using hx j
    · have h1 : r i ≤ r j := hmin j (by simpa using hj)
      have h2 := hrd j hj
      have h3 := hpos i hi'
      have h4 := hstrict j (hd j hj)
      have h5 := mul_le_mul_of_nonneg_right h1 (abs_nonneg (d j))
      have h6 := mul_pos h3 (abs_pos.2 hj)
      rw [h2] at h5
      rcases lt_or_gt_of_ne hj with hneg | hp
      · rw [abs_of_neg hneg] at h5 h6
        rw [if_neg (not_lt.2 hneg.le)] at h5
        exact abs_le.2 ⟨by linarith, by linarith⟩
      · rw [abs_of_pos hp] at h5 h6
        rw [if_pos hp] at h5
        exact abs_le.2 ⟨by linarith, by linarith⟩
  refine ⟨r i, hpos i hi', hcube, Finset.card_lt_card ?_⟩
  rw [Finset.ssubset_iff_of_subset]
  · refine ⟨i, by simpa using hd i hi', ?_⟩
    have h2 := hrd i hi'
    simp only [Finset.mem_filter, Finset.mem_univ, true_and, not_not]
    rcases lt_or_gt_of_ne hi' with hneg | hp
    · rw [abs_of_neg hneg, if_neg (not_lt.2 hneg.le)] at h2
      have : x i + r i * d i = -1 := by linarith
      simp [this]
    · rw [abs_of_pos hp, if_pos hp] at h2
      have : x i + r i * d i = 1 := by linarith
      simp [this]
  · intro j hj
    simp only [Finset.mem_filter, Finset.mem_univ, true_and] at hj ⊢
    intro h
    by_cases hdj : d j = 0
    · exact hj (by simpa [hdj] using h)
    · exact hd j hdj h

/-- A set closed under segments that contains the points on the edges contains the intersection of the hyperplane and the cube. -/
theorem hull {m : ℕ} {c : Fin m → K} {const : K} (hc : ∃ i, c i ≠ 0) (S : (Fin m → K) → Prop)
    (hS : ∀ y z s, S y → S z → 0 ≤ s → s ≤ 1 → S fun i => s * y i + (1 - s) * z i)
    (hv : ∀ i x, c i ≠ 0 → (∀ j, j ≠ i → x j = -1 ∨ x j = 1) → |x i| ≤ 1 → const + ∑ j, c j * x j = 0 → S x)
    (N : ℕ) (x : Fin m → K) (hN : (univ.filter fun i => |x i| ≠ 1).card = N) (hx : ∀ i, |x i| ≤ 1)
    (he : const + ∑ j, c j * x j = 0) : S x := by
  induction N using Nat.strong_induction_on generalizing x with
  | _ N ih =>
    by_cases hdir : ∃ d : Fin m → K, (∀ i, d i ≠ 0 → |x i| ≠ 1) ∧ (∃ i, d i ≠ 0) ∧ ∑ j, c j * d j = 0
    · obtain ⟨d, h1, h2, h3⟩ := hdir
      obtain ⟨s, hs, hsx, hsN⟩ := push_face hx h1 h2
      obtain ⟨t, ht, htx, htN⟩ := push_face (d := fun i => -d i) hx (fun i hi => h1 i (by simpa using hi)) (h2.imp fun i hi => by simpa using hi)
      have a1 := ih _ (hN ▸ hsN) (fun i => x i + s * d i) rfl hsx (by
        rw [← he, ← add_zero (∑ j, c j * x j), ← mul_zero s, ← h3, Finset.mul_sum, ← Finset.sum_add_distrib]
        congr 1
        exact Finset.sum_congr rfl fun j _ => by ring)
      have a2 := ih _ (hN ▸ htN) (fun i => x i + t * -d i) rfl htx (by
        rw [← he, ← add_zero (∑ j, c j * x j), ← mul_zero (-t), ← h3, Finset.mul_sum, ← Finset.sum_add_distrib]
        congr 1
        exact Finset.sum_congr rfl fun j _ => by ring)
      have hst : 0 < s + t := by positivity
      have := hS _ _ (t / (s + t)) a1 a2 (by positivity) ((div_le_one hst).2 (by linarith))
      convert this using 2 with i
      field_simp
      ring
    · push Not at hdir
      have hfree : ∀ i, |x i| ≠ 1 → c i ≠ 0 := by
        intro i hi h0
        refine hdir (Pi.single i 1) (fun j hj => ?_) ⟨i, by simp⟩ ?_
        · have : j = i := by by_contra e; simp [e] at hj
          rw [this]; exact hi
        · rw [Finset.sum_eq_single i] <;> simp_all
      have honly : ∀ i j, |x i| ≠ 1 → |x j| ≠ 1 → i = j := by
        intro i j hi hj
        by_contra hij
        refine hdir (fun k => if k = i then c j else if k = j then -c i else 0) (fun k hk => ?_) ⟨i, by simpa using hfree j hj⟩ ?_
        · by_cases e1 : k = i
          · rw [e1]; exact hi
          · by_cases e2 : k = j
            · rw [e2]; exact hj
            · simp [e1, e2] at hk
        · rw [← Finset.sum_subset (s₁ := {i, j}) (Finset.subset_univ _), Finset.sum_pair hij]
          · simp only [if_true, if_neg (Ne.symm hij)]
            ring
          · intro k _ hk
            simp only [Finset.mem_insert, Finset.mem_singleton, not_or] at hk
            simp [hk.1, hk.2]
      have hpm : ∀ j, |x j| = 1 → x j = -1 ∨ x j = 1 := fun j hj => ((abs_eq (by norm_num)).1 hj).symm
      by_cases hex : ∃ i, |x i| ≠ 1
      · obtain ⟨i, hi⟩ := hex
        exact hv i x (hfree i hi) (fun j hj => hpm j (by by_contra h; exact hj (honly j i h hi))) (hx i) he
      · push Not at hex
        obtain ⟨i, hi⟩ := hc
        exact hv i x hi (fun j _ => hpm j (hex j)) (hx i) he

theorem rowMin_le {l : List K} {a : K} (h : a ∈ l) : rowMin l ≤ a := by
  cases l with
  | nil => simp at h
  | cons b l =>
    have key : ∀ (l : List K) (b : K), l.foldl min b ≤ b ∧ ∀ a ∈ l, l.foldl min b ≤ a := by
      intro l
      induction l with
      | nil => simp
      | cons c l ih =>
        intro b
        rw [List.foldl_cons]
        obtain ⟨h1, h2⟩ := ih (min b c)
        refine ⟨h1.trans (min_le_left _ _), fun a ha => ?_⟩
        rcases List.mem_cons.1 ha with rfl | ha
        · exact h1.trans (min_le_right _ _)
        · exact h2 a ha
    rcases List.mem_cons.1 h with rfl | h
    · exact (key l a).1
    · exact (key l b).2 a h

theorem le_rowMax {l : List K} {a : K} (h : a ∈ l) : a ≤ rowMax l := by
  cases l with
  | nil => simp at h
  | cons b l =>
    have key : ∀ (l : List K) (b : K), b ≤ l.foldl max b ∧ ∀ a ∈ l, a ≤ l.foldl max b := by
      intro l
      induction l with
      | nil => simp
      | cons c l ih =>
        intro b
        rw [List.foldl_cons]
        obtain ⟨h1, h2⟩ := ih (max b c)
        refine ⟨(le_max_left _ _).trans h1, fun a ha => ?_⟩
        rcases List.mem_cons.1 ha with rfl | ha
        · exact (le_max_right _ _).trans h1
        · exact h2 a ha
    rcases List.mem_cons.1 h with rfl | h
    · exact (key l a).1
    · exact (key l b).2 a h

theorem rowMin_zero {l : List K} (h : ∀ a ∈ l, a = 0) : rowMin l = 0 ∧ rowMax l = 0 := by
  cases l with
  | nil => exact ⟨rfl, rfl⟩
  | cons b l =>
    obtain rfl := h b (by simp)
    have key : ∀ l : List K, (∀ a ∈ l, a = 0) → l.foldl min 0 = 0 ∧ l.foldl max 0 = 0 := by
      intro l
      induction l with
      | nil => simp
      | cons c l ih =>
        intro h
        obtain rfl := h c (by simp)
        simpa using ih fun a ha => h a (by simp [ha])
    exact key l fun a ha => h a (by simp [ha])

omit [IsStrictOrderedRing K] in
theorem mem_uniqueRows {m : ℕ} {l : List (Fin m → K)} {x : Fin m → K} : x ∈ uniqueRows l ↔ x ∈ l := by
  simp [uniqueRows]

/-- If all columns of the factorised matrix are orthogonal to `c`, then for every `k` the column `k` of `Q` is orthogonal to `c` or the
row `k` of `R` is zero. -/
theorem qr_orth {L : ProjLib n K} (hL : L.Correct) {m : ℕ} (A : Matrix (Fin (n + 1)) (Fin m) K) (c : Fin (n + 1) → K)
    (hA : ∀ j, ∑ i, c i * A i j = 0) (k : Fin (n + 1)) : ∑ i, c i * L.qrQ A i k = 0 ∨ ∀ j, L.qrR A k j = 0 := by
  set Q := L.qrQ A
  set R := L.qrR A with hR
  have hsum : ∀ j, ∑ k, (∑ i, c i * Q i k) * R k j = 0 := by
    intro j
    have h1 : ∀ i, ∑ k, Q i k * R k j = A i (L.qrP A j) := fun i => by
      have := congrFun (congrFun (hL.factor A) i) j
      simpa [Matrix.mul_apply] using this
    rw [← hA (L.qrP A j)]
    simp_rw [Finset.sum_mul]
    rw [Finset.sum_comm]
    refine Finset.sum_congr rfl fun i _ => ?_
    rw [← h1, Finset.mul_sum]
    exact Finset.sum_congr rfl fun k _ => by ring
  obtain ⟨k, hk⟩ := k
  induction k using Nat.strong_induction_on with
  | _ k ih =>
    by_cases hkm : k < m
    · have h0 := hsum ⟨k, hkm⟩
      rw [Finset.sum_eq_single ⟨k, hk⟩] at h0
      · rcases mul_eq_zero.1 h0 with h0 | h0
        · exact Or.inl h0
        · refine Or.inr fun j => ?_
          by_cases hj : j.1 < k
          · exact hL.upper A _ j hj
          · have h1 := hL.pivot A ⟨k, hk⟩ ⟨k, hkm⟩ j rfl (not_lt.1 hj)
            rw [← hR, h0] at h1
            have h2 := Finset.single_le_sum (f := fun i => R i j ^ 2) (fun i _ => sq_nonneg _)
              (Finset.mem_filter.2 ⟨Finset.mem_univ (⟨k, hk⟩ : Fin (n + 1)), le_rfl⟩)
            have h3 : R ⟨k, hk⟩ j ^ 2 ≤ 0 := h2.trans (by simpa using h1)
            exact pow_eq_zero_iff (two_ne_zero) |>.1 (le_antisymm h3 (sq_nonneg _))
      · intro b _ hb
        rcases lt_trichotomy b.1 k with h | h | h
        · rcases ih b.1 h b.2 with h' | h'
          · rw [h', zero_mul]
          · rw [h', mul_zero]
        · exact absurd (Fin.ext h) hb
        · rw [hR, hL.upper A b ⟨k, hkm⟩ h, mul_zero]
      · simp
    · exact Or.inr fun j => hL.upper A _ j (by have := j.2; simp only; omega)

theorem qr_last {L : ProjLib n K} (hL : L.Correct) {m : ℕ} (A : Matrix (Fin (n + 1)) (Fin m) K) (c : Fin (n + 1) → K)
    (hc : ∃ i, c i ≠ 0) (hA : ∀ j, ∑ i, c i * A i j = 0) (j : Fin m) : L.qrR A (Fin.last n) j = 0 := by
  by_contra hne
  have hnj : n ≤ j.1 := by
    by_contra h
    exact hne (hL.upper A _ j (by simpa using h))
  have hnm : n < m := lt_of_le_of_lt hnj j.2
  have hdiag : ∀ k : Fin (n + 1), ∃ j, L.qrR A k j ≠ 0 := by
    intro k
    refine ⟨⟨k.1, by have := k.2; omega⟩, fun h0 => hne ?_⟩
    have h1 := hL.pivot A k ⟨k.1, by have := k.2; omega⟩ j rfl (by show k.1 ≤ j.1; have := k.2; omega)
    rw [h0] at h1
    have h2 := Finset.single_le_sum (f := fun i => L.qrR A i j ^ 2) (fun i _ => sq_nonneg _)
      (Finset.mem_filter.2 ⟨Finset.mem_univ (Fin.last n), Fin.le_last k⟩)
    have h3 : L.qrR A (Fin.last n) j ^ 2 ≤ 0 := h2.trans (by simpa using h1)
    exact pow_eq_zero_iff (two_ne_zero) |>.1 (le_antisymm h3 (sq_nonneg _))
  have hz : c ᵥ* L.qrQ A = 0 := by
    funext k
    rcases qr_orth hL A c hA k with h | h
    · simpa [Matrix.vecMul, dotProduct] using h
    · obtain ⟨j, hj⟩ := hdiag k
      exact absurd (h j) hj
  have hQ : L.qrQ A * (L.qrQ A)ᵀ = 1 := mul_eq_one_comm.1 (hL.orth A)
  have : c = 0 := by
    rw [← Matrix.vecMul_one c, ← hQ, ← Matrix.vecMul_vecMul, hz, Matrix.zero_vecMul]
  obtain ⟨i, hi⟩ := hc
  exact hi (by rw [this]; rfl)

/-! ### The theorems -/

/-- **C71.**  If no coefficient is so small that it is taken for zero, the parallelepiped covers the zeros of the linear polynomial in the
cube. -/
theorem C71_covers_partial (L : ProjLib n K) (hL : L.Correct) (M : Tensor (n + 1) K) (hs : ∀ j, 1 < M.shape j) (hl : Linear M)
    (hc : ∃ i, linCoef M i ≠ 0) (hbig : ∀ i, linCoef M i = 0 ∨ 1 / 10 ^ 8 < |linCoef M i|) (x : Fin (n + 1) → K) (hx : InCube x)
    (h0 : M.eval x = 0) : inParallelepiped (boundingParallelepiped L M).1 (boundingParallelepiped L M).2 x := by
  rw [eval_linear hs hl] at h0
  set c := linCoef M with hcdef
  have hmem : ∀ y, y ∈ uniqueRows ((List.finRange (n + 1)).flatMap (edgePoints M.const c)) ↔ ∃ i, y ∈ edgePoints M.const c i := by
    intro y
    simp [mem_uniqueRows]
  have hvert : ∀ i y, c i ≠ 0 → (∀ j, j ≠ i → y j = -1 ∨ y j = 1) → |y i| ≤ 1 → M.const + ∑ j, c j * y j = 0 →
      y ∈ uniqueRows ((List.finRange (n + 1)).flatMap (edgePoints M.const c)) := fun i y h1 h2 h3 h4 =>
    (hmem y).2 ⟨i, mem_edgePoints.2 ⟨(hbig i).resolve_left h1, h2, h3, h4⟩⟩
  unfold boundingParallelepiped
  dsimp only
  rw [← hcdef]
  cases hu : uniqueRows ((List.finRange (n + 1)).flatMap (edgePoints M.const c)) with
  | nil =>
    exfalso
    refine hull hc (fun _ => False) (fun _ _ _ h _ _ _ => h) (fun i y h1 h2 h3 h4 => ?_) _ x rfl hx h0
    have := hvert i y h1 h2 h3 h4
    rw [hu] at this
    simp at this
  | cons v0 vs =>
    set A : Matrix (Fin (n + 1)) (Fin (v0 :: vs).length) K := Matrix.of fun i j => (v0 :: vs).get j i - v0 i with hA
    have hplane : ∀ y ∈ v0 :: vs, M.const + ∑ j, c j * y j = 0 := by
      intro y hy
      rw [← hu, hmem] at hy
      obtain ⟨i, hi⟩ := hy
      exact (mem_edgePoints.1 hi).2.2.2
    have hAc : ∀ j, ∑ i, c i * A i j = 0 := by
      intro j
      have h1 := hplane _ (List.get_mem (v0 :: vs) j)
      have h2 := hplane v0 (by simp)
      simp only [hA, Matrix.of_apply, mul_sub, Finset.sum_sub_distrib]
      linarith
    have hQQ : L.qrQ A * (L.qrQ A)ᵀ = 1 := mul_eq_one_comm.1 (hL.orth A)
    have hQR : ∀ y ∈ v0 :: vs, ∃ j, ∀ k, ((L.qrQ A)ᵀ *ᵥ (y - v0)) k = L.qrR A k j := by
      intro y hy
      obtain ⟨j, rfl⟩ := List.get_of_mem hy
      refine ⟨(L.qrP A).symm j, fun k => ?_⟩
      have h1 : (L.qrQ A)ᵀ * A.submatrix id (L.qrP A) = L.qrR A := by
        rw [← hL.factor A, ← Matrix.mul_assoc, hL.orth A, Matrix.one_mul]
      have h2 := congrFun (congrFun h1 k) ((L.qrP A).symm j)
      rw [← h2]
      simp [Matrix.mul_apply, Matrix.mulVec, dotProduct, hA]
    -- the coordinates in the basis `Q`
    have hS := hull hc (fun y => ∀ k : Fin n, rowMin (List.ofFn (L.qrR A k.castSucc)) ≤ ((L.qrQ A)ᵀ *ᵥ (y - v0)) k.castSucc ∧
      ((L.qrQ A)ᵀ *ᵥ (y - v0)) k.castSucc ≤ rowMax (List.ofFn (L.qrR A k.castSucc))) ?_ ?_ _ x rfl hx h0
    · have hlast : ((L.qrQ A)ᵀ *ᵥ (x - v0)) (Fin.last n) = 0 := by
        refine hull hc (fun y => ((L.qrQ A)ᵀ *ᵥ (y - v0)) (Fin.last n) = 0) ?_ ?_ _ x rfl hx h0
        · intro y z s hy hz _ _
          have : (fun i => s * y i + (1 - s) * z i) - v0 = s • (y - v0) + (1 - s) • (z - v0) := by
            funext i
            simp only [Pi.sub_apply, Pi.add_apply, Pi.smul_apply, smul_eq_mul]
            ring
          rw [this, Matrix.mulVec_add, Matrix.mulVec_smul, Matrix.mulVec_smul, Pi.add_apply, Pi.smul_apply, Pi.smul_apply, hy, hz]
          simp
        · intro i y h1 h2 h3 h4
          have := hvert i y h1 h2 h3 h4
          rw [hu] at this
          obtain ⟨j, hj⟩ := hQR y this
          rw [hj, qr_last hL A c hc hAc]
      set u := (L.qrQ A)ᵀ *ᵥ (x - v0) with hudef
      have hxu : ∀ i, x i - v0 i = ∑ k : Fin n, L.qrQ A i k.castSucc * u k.castSucc := by
        intro i
        have h1 : L.qrQ A *ᵥ u = x - v0 := by rw [hudef, Matrix.mulVec_mulVec, hQQ, Matrix.one_mulVec]
        have h2 := congrFun h1 i
        rw [Matrix.mulVec, dotProduct, Fin.sum_univ_castSucc, hlast, mul_zero, add_zero] at h2
        exact h2.symm
      refine ⟨fun k => (u k.castSucc - rowMin (List.ofFn (L.qrR A k.castSucc))) /
        (rowMax (List.ofFn (L.qrR A k.castSucc)) - rowMin (List.ofFn (L.qrR A k.castSucc))), fun k => ?_, fun i => ?_⟩
      · have := hS k
        refine ⟨div_nonneg (by linarith [this.1]) (by linarith [this.1, this.2]), div_le_one_of_le₀ (by linarith [this.2]) (by linarith [this.1, this.2])⟩
      · have hxi : x i = v0 i + ∑ k : Fin n, L.qrQ A i k.castSucc * u k.castSucc := by rw [← hxu i]; ring
        change x i = (∑ k : Fin n, L.qrQ A i k.castSucc * rowMin (List.ofFn (L.qrR A k.castSucc)) + v0 i) + ∑ k : Fin n,
          L.qrQ A i k.castSucc * (rowMax (List.ofFn (L.qrR A k.castSucc)) - rowMin (List.ofFn (L.qrR A k.castSucc))) *
          ((u k.castSucc - rowMin (List.ofFn (L.qrR A k.castSucc))) /
          (rowMax (List.ofFn (L.qrR A k.castSucc)) - rowMin (List.ofFn (L.qrR A k.castSucc))))
        rw [hxi, add_comm (∑ k : Fin n, L.qrQ A i k.castSucc * rowMin _) (v0 i), add_assoc, ← Finset.sum_add_distrib]
        congr 1
        refine Finset.sum_congr rfl fun k _ => ?_
        have := hS k
        by_cases he : rowMax (List.ofFn (L.qrR A k.castSucc)) - rowMin (List.ofFn (L.qrR A k.castSucc)) = 0
        · rw [he]
          have : u k.castSucc = rowMin (List.ofFn (L.qrR A k.castSucc)) := by linarith [this.1, this.2]
          rw [this]
          ring
        · rw [mul_assoc, mul_div_cancel₀ _ he]
          ring
    · intro y z s hy hz hs0 hs1 k
      have : (fun i => s * y i + (1 - s) * z i) - v0 = s • (y - v0) + (1 - s) • (z - v0) := by
        funext i
        simp only [Pi.sub_apply, Pi.add_apply, Pi.smul_apply, smul_eq_mul]
        ring
      rw [this, Matrix.mulVec_add, Matrix.mulVec_smul, Matrix.mulVec_smul, Pi.add_apply, Pi.smul_apply, Pi.smul_apply, smul_eq_mul,
        smul_eq_mul]
      have a1 := mul_le_mul_of_nonneg_left (hy k).1 hs0
      have a2 := mul_le_mul_of_nonneg_left (hy k).2 hs0
      have b1 := mul_le_mul_of_nonneg_left (hz k).1 (sub_nonneg.2 hs1)
      have b2 := mul_le_mul_of_nonneg_left (hz k).2 (sub_nonneg.2 hs1)
      constructor <;> linarith
    · intro i y h1 h2 h3 h4 k
      have := hvert i y h1 h2 h3 h4
      rw [hu] at this
      obtain ⟨j, hj⟩ := hQR y this
      rw [hj]
      have hm : L.qrR A k.castSucc j ∈ List.ofFn (L.qrR A k.castSucc) := (List.mem_ofFn' _ _).2 ⟨j, rfl⟩
      exact ⟨rowMin_le hm, le_rowMax hm⟩

/-- **C71.**  The parallelepiped lies in the zero set of the linear polynomial. -/
theorem C71_in_plane (L : ProjLib n K) (hL : L.Correct) (M : Tensor (n + 1) K) (hs : ∀ j, 1 < M.shape j) (hl : Linear M)
    (hc : ∃ i, linCoef M i ≠ 0) (x : Fin (n + 1) → K)
    (hx : inParallelepiped (boundingParallelepiped L M).1 (boundingParallelepiped L M).2 x) : M.eval x = 0 := by
  rw [eval_linear hs hl]
  set c := linCoef M with hcdef
  obtain ⟨t, ht, hxt⟩ := hx
  unfold boundingParallelepiped at hxt
  dsimp only at hxt
  rw [← hcdef] at hxt
  cases hu : uniqueRows ((List.finRange (n + 1)).flatMap (edgePoints M.const c)) with
  | nil =>
    rw [hu] at hxt
    simp only [Matrix.of_apply] at hxt
    set A : Matrix (Fin (n + 1)) (Fin (n + 1)) K := Matrix.of fun i j =>
      Fin.cases (c i) (fun k => if i = k.castSucc then 1 else 0) j with hA
    obtain ⟨ho, R, hR, hQR⟩ := hL.plain A
    have hcol : ∀ k : Fin n, ∑ i, c i * L.qr A i k.succ = 0 := by
      intro k
      have h1 : (L.qr A)ᵀ * A = R :=
        calc (L.qr A)ᵀ * A = (L.qr A)ᵀ * (L.qr A * R) := by rw [hQR]
          _ = R := by rw [← Matrix.mul_assoc, ho, Matrix.one_mul]
      have h2 := congrFun (congrFun h1 k.succ) 0
      rw [hR _ _ (Fin.succ_pos k), Matrix.mul_apply] at h2
      rw [← h2]
      refine Finset.sum_congr rfl fun i _ => ?_
      simp [hA, mul_comm]
    have hcc : ∑ j, c j * c j ≠ 0 := by
      obtain ⟨i, hi⟩ := hc
      have : 0 < ∑ j, c j * c j := Finset.sum_pos' (fun j _ => mul_self_nonneg _) ⟨i, Finset.mem_univ _, mul_self_pos.2 hi⟩
      exact this.ne'
    have e1 : ∑ i, c i * x i = -M.const / (∑ j, c j * c j) * (∑ j, c j * c j) + ∑ k, (∑ i, c i * L.qr A i k.succ) * t k := by
      rw [Finset.mul_sum]
      simp_rw [Finset.sum_mul]
      rw [Finset.sum_comm, ← Finset.sum_add_distrib]
      refine Finset.sum_congr rfl fun i _ => ?_
      rw [hxt i, mul_add, Finset.mul_sum]
      congr 1
      · ring
      · exact Finset.sum_congr rfl fun k _ => by ring
    rw [e1, div_mul_cancel₀ _ hcc, Finset.sum_eq_zero fun k _ => by rw [hcol k, zero_mul]]
    ring
  | cons v0 vs =>
    rw [hu] at hxt
    set A : Matrix (Fin (n + 1)) (Fin (v0 :: vs).length) K := Matrix.of fun i j => (v0 :: vs).get j i - v0 i with hA
    have hplane : ∀ y ∈ v0 :: vs, M.const + ∑ j, c j * y j = 0 := by
      intro y hy
      rw [← hu, mem_uniqueRows, List.mem_flatMap] at hy
      obtain ⟨i, -, hi⟩ := hy
      exact (mem_edgePoints.1 hi).2.2.2
    have hAc : ∀ j, ∑ i, c i * A i j = 0 := by
      intro j
      have h1 := hplane _ (List.get_mem (v0 :: vs) j)
      have h2 := hplane v0 (by simp)
      simp only [hA, Matrix.of_apply, mul_sub, Finset.sum_sub_distrib]
      linarith
    simp only [Matrix.of_apply] at hxt
    have hcol : ∀ k : Fin n, (∑ i, c i * L.qrQ A i k.castSucc) * (rowMin (List.ofFn (L.qrR A k.castSucc)) +
        (rowMax (List.ofFn (L.qrR A k.castSucc)) - rowMin (List.ofFn (L.qrR A k.castSucc))) * t k) = 0 := by
      intro k
      rcases qr_orth hL A c hAc k.castSucc with h | h
      · rw [h, zero_mul]
      · obtain ⟨h1, h2⟩ := rowMin_zero (l := List.ofFn (L.qrR A k.castSucc)) (by
          intro a ha
          obtain ⟨j, rfl⟩ := (List.mem_ofFn' _ _).1 ha
          exact h j)
        rw [h1, h2]
        ring
    have e1 : ∑ i, c i * x i = ∑ i, c i * v0 i + ∑ k : Fin n, (∑ i, c i * L.qrQ A i k.castSucc) *
        (rowMin (List.ofFn (L.qrR A k.castSucc)) +
        (rowMax (List.ofFn (L.qrR A k.castSucc)) - rowMin (List.ofFn (L.qrR A k.castSucc))) * t k) := by
      simp_rw [Finset.sum_mul]
      rw [Finset.sum_comm, ← Finset.sum_add_distrib]
      refine Finset.sum_congr rfl fun i _ => ?_
      rw [hxt i, add_comm (∑ k : Fin n, _) (v0 i), add_assoc, ← Finset.sum_add_distrib, mul_add, Finset.mul_sum]
      congr 1
      exact Finset.sum_congr rfl fun k _ => by ring
    rw [e1, Finset.sum_eq_zero fun k _ => hcol k, add_zero]
    exact hplane v0 (by simp)

/-! ### The assumptions can be met: every real matrix has these factorisations -/

/-- Factorisations chosen by `exists_qr`. -/
noncomputable def someProjLib (n : ℕ) : ProjLib n ℝ where
  qrQ A := (exists_qr true _ _ A).choose
  qrR A := (exists_qr true _ _ A).choose_spec.choose
  qrP A := (exists_qr true _ _ A).choose_spec.choose_spec.choose
  qr A := (exists_qr false _ _ A).choose

theorem someProjLib_correct (n : ℕ) : (someProjLib n).Correct where
  orth A := (exists_qr true _ _ A).choose_spec.choose_spec.choose_spec.1
  factor A := (exists_qr true _ _ A).choose_spec.choose_spec.choose_spec.2.1
  upper A := (exists_qr true _ _ A).choose_spec.choose_spec.choose_spec.2.2.1
  pivot A := (exists_qr true _ _ A).choose_spec.choose_spec.choose_spec.2.2.2.2 rfl
  plain A := by
    obtain ⟨R, σ, h1, h2, h3, h4, -⟩ := (exists_qr false _ _ A).choose_spec
    refine ⟨h1, R, fun i j h => h3 i j h, ?_⟩
    rw [h4 rfl] at h2
    rw [Equiv.Perm.coe_one, submatrix_id_id] at h2
    exact h2

/-- `y` as a polynomial in two variables. -/
noncomputable def lineY : Tensor 2 ℝ := ⟨fun _ => 2, fun k => if k = Pi.single 1 1 then 1 else 0⟩

/-- `1e-9 x` as a polynomial in two variables. -/
noncomputable def smallX : Tensor 2 ℝ := ⟨fun _ => 2, fun k => if k = Pi.single 0 1 then 1 / 10 ^ 9 else 0⟩

theorem single_sum {m : ℕ} {i : Fin m} : ∑ j, (Pi.single i 1 : Fin m → ℕ) j = 1 := by
  rw [Finset.sum_pi_single']
  simp

theorem lineY_linear : Linear lineY := fun k _ h => by
  refine if_neg fun e => ?_
  rw [e, single_sum] at h
  exact lt_irrefl _ h

theorem smallX_linear : Linear smallX := fun k _ h => by
  refine if_neg fun e => ?_
  rw [e, single_sum] at h
  exact lt_irrefl _ h

theorem lineY_data : lineY.const = 0 ∧ linCoef lineY 0 = 0 ∧ linCoef lineY 1 = 1 := by
  have e1 : (fun _ => 0 : Fin 2 → ℕ) ≠ Pi.single 1 1 := by decide
  have e2 : (Pi.single 0 1 : Fin 2 → ℕ) ≠ Pi.single 1 1 := by decide
  exact ⟨by simp [lineY, Tensor.const, e1], by simp [lineY, linCoef, e2], by simp [lineY, linCoef]⟩

theorem smallX_data : smallX.const = 0 ∧ linCoef smallX 0 = 1 / 10 ^ 9 ∧ linCoef smallX 1 = 0 := by
  have e1 : (fun _ => 0 : Fin 2 → ℕ) ≠ Pi.single 0 1 := by decide
  have e2 : (Pi.single 1 1 : Fin 2 → ℕ) ≠ Pi.single 0 1 := by decide
  exact ⟨by simp [smallX, Tensor.const, e1], by simp [smallX, linCoef], by simp [smallX, linCoef, e2]⟩

/-- The point `(1/2, 0)` of the line `y = 0`, with factorisations that exist. -/
example : inParallelepiped (boundingParallelepiped (someProjLib 1) lineY).1 (boundingParallelepiped (someProjLib 1) lineY).2 ![1 / 2, 0] := by
  obtain ⟨h0, h1, h2⟩ := lineY_data
  refine C71_covers_partial _ (someProjLib_correct 1) lineY (fun _ => by simp [lineY]) lineY_linear ⟨1, by rw [h2]; norm_num⟩ ?_ _ ?_ ?_
  · intro i
    fin_cases i
    · exact Or.inl h1
    · right
      change 1 / 10 ^ 8 < |linCoef lineY 1|
      rw [h2]; norm_num
  · intro i
    fin_cases i <;> norm_num
  · rw [eval_linear (fun _ => by simp [lineY]) lineY_linear, Fin.sum_univ_two, h0, h1, h2]
    norm_num

/-- **C71 is false for small coefficients.** `1e-9 x` vanishes at `(0, 1)` and `(0, -1)`, but the coefficient is taken for zero, no
vertex is found, and the edge returned has length 1. -/
theorem C71_small_false (L : ProjLib 1 ℝ) : ¬ ∀ x : Fin 2 → ℝ, InCube x → smallX.eval x = 0 →
    inParallelepiped (boundingParallelepiped L smallX).1 (boundingParallelepiped L smallX).2 x := by
  obtain ⟨h0, h1, h2⟩ := smallX_data
  intro h
  have hz : ∀ y : ℝ, smallX.eval ![0, y] = 0 := fun y => by
    rw [eval_linear (fun _ => by simp [smallX]) smallX_linear, Fin.sum_univ_two, h0, h1, h2]
    norm_num
  have hu : uniqueRows ((List.finRange 2).flatMap (edgePoints smallX.const (linCoef smallX))) = [] := by
    refine List.eq_nil_iff_forall_not_mem.2 fun y hy => ?_
    rw [mem_uniqueRows, List.mem_flatMap] at hy
    obtain ⟨i, -, hi⟩ := hy
    have := (mem_edgePoints.1 hi).1
    fin_cases i
    · change 1 / 10 ^ 8 < |linCoef smallX 0| at this
      rw [h1] at this
      norm_num [abs_of_pos] at this
    · change 1 / 10 ^ 8 < |linCoef smallX 1| at this
      rw [h2] at this
      norm_num at this
  obtain ⟨t, ht, e⟩ := h ![0, 1] (fun i => by fin_cases i <;> norm_num) (hz 1)
  obtain ⟨t', ht', e'⟩ := h ![0, -1] (fun i => by fin_cases i <;> norm_num) (hz (-1))
  have e1 := e 1
  have e1' := e' 1
  unfold boundingParallelepiped at e1 e1'
  dsimp only at e1 e1'
  rw [hu] at e1 e1'
  simp only [h0, neg_zero, zero_div, zero_mul, zero_add, Finset.univ_unique, Fin.default_eq_zero, Finset.sum_singleton, Matrix.of_apply,
    Matrix.cons_val_one, Matrix.cons_val_fin_one] at e1 e1'
  have p := (ht 0).1
  have p' := (ht' 0).1
  set q := L.qr _ 1 _
  have := mul_nonneg p p'
  nlinarith [mul_self_nonneg q]

/-! ### C72: the map of `project_down` -/

/-- **C72 (in three variables).** The image of the square under the map of `project_down` is the parallelepiped. -/
theorem C72_image_partial (L : ProjLib 2 ℝ) (M : Tensor 3 ℝ) (y : Fin 3 → ℝ) :
    (∃ x : Fin 2 → ℝ, InCube x ∧ projT L M x = y) ↔ inParallelepiped (boundingParallelepiped L M).1 (boundingParallelepiped L M).2 y := by
  constructor
  · rintro ⟨x, hx, rfl⟩
    refine ⟨fun k => (x k + 1) / 2, fun k => ?_, fun i => ?_⟩
    · have := abs_le.1 (hx k)
      constructor <;> linarith [this.1, this.2]
    · simp only [projT, Fin.sum_univ_two]
      push_cast
      ring
  · rintro ⟨t, ht, h⟩
    refine ⟨fun k => 2 * t k - 1, fun k => ?_, ?_⟩
    · have := ht k
      rw [abs_le]
      constructor <;> linarith [this.1, this.2]
    · funext i
      rw [h i]
      simp only [projT, Fin.sum_univ_two]
      push_cast
      ring

theorem rowMin_mem {l : List ℝ} (h : l ≠ []) : rowMin l ∈ l := by
  cases l with
  | nil => exact absurd rfl h
  | cons b l =>
    clear h
    have : ∀ (l : List ℝ) (b : ℝ), l.foldl min b = b ∨ l.foldl min b ∈ l := by
      intro l
      induction l with
      | nil => intro b; exact Or.inl rfl
      | cons a l ih =>
        intro b
        rw [List.foldl_cons]
        rcases ih (min b a) with h | h
        · rcases min_choice b a with e | e <;> rw [h, e] <;> simp
        · simp [h]
    rcases this l b with h | h
    · rw [rowMin, h]; simp
    · rw [rowMin]; simp [h]

theorem rowMax_mem {l : List ℝ} (h : l ≠ []) : rowMax l ∈ l := by
  cases l with
  | nil => exact absurd rfl h
  | cons b l =>
    clear h
    have : ∀ (l : List ℝ) (b : ℝ), l.foldl max b = b ∨ l.foldl max b ∈ l := by
      intro l
      induction l with
      | nil => intro b; exact Or.inl rfl
      | cons a l ih =>
        intro b
        rw [List.foldl_cons]
        rcases ih (max b a) with h | h
        · rcases max_choice b a with e | e <;> rw [h, e] <;> simp
        · simp [h]
    rcases this l b with h | h
    · rw [rowMax, h]; simp
    · rw [rowMax]; simp [h]

/-- **C72 is false in two variables.** `np.mean` divides by the number of edges, here 1, instead of by 2: the map misses zeros of `y` in
the square, whatever correct factorisation is used. -/
theorem C72_line_false (L : ProjLib 1 ℝ) (hL : L.Correct) : ¬ ∀ y : Fin 2 → ℝ, InCube y → lineY.eval y = 0 →
    ∃ x : Fin 1 → ℝ, InCube x ∧ projT L lineY x = y := by
  obtain ⟨h0, h1, h2⟩ := lineY_data
  intro h
  have hz : ∀ y : ℝ, lineY.eval ![y, 0] = 0 := fun y => by
    rw [eval_linear (fun _ => by simp [lineY]) lineY_linear, Fin.sum_univ_two, h0, h1, h2]
    norm_num
  have hmem : ∀ y, y ∈ uniqueRows ((List.finRange 2).flatMap (edgePoints lineY.const (linCoef lineY))) ↔ (y 0 = -1 ∨ y 0 = 1) ∧ y 1 = 0 := by
    intro y
    rw [mem_uniqueRows, List.mem_flatMap]
    constructor
    · rintro ⟨i, -, hi⟩
      rw [mem_edgePoints, Fin.sum_univ_two, h0, h1, h2] at hi
      obtain ⟨a, b, c, d⟩ := hi
      fin_cases i
      · change 1 / 10 ^ 8 < |linCoef lineY 0| at a
        rw [h1] at a
        norm_num at a
      · exact ⟨b 0 (by simp), by linarith⟩
    · rintro ⟨a, b⟩
      refine ⟨1, by simp, mem_edgePoints.2 ⟨by rw [h2]; norm_num, fun j hj => ?_, by rw [b]; norm_num, ?_⟩⟩
      · fin_cases j
        · exact a
        · exact absurd rfl hj
      · rw [Fin.sum_univ_two, h0, h1, h2, b]; norm_num
  obtain ⟨x, hx, e⟩ := h ![1, 0] (fun i => by fin_cases i <;> norm_num) (hz 1)
  obtain ⟨x', hx', e'⟩ := h ![-1, 0] (fun i => by fin_cases i <;> norm_num) (hz (-1))
  have e1 := congrFun e 0
  have e1' := congrFun e' 0
  unfold projT boundingParallelepiped at e1 e1'
  dsimp only at e1 e1'
  cases hu : uniqueRows ((List.finRange 2).flatMap (edgePoints lineY.const (linCoef lineY))) with
  | nil =>
    rw [hu] at hmem
    have := (hmem ![1, 0]).2 (by simp)
    simp at this
  | cons v0 vs =>
    rw [hu] at hmem e1 e1'
    simp only [Finset.univ_unique, Fin.default_eq_zero, Finset.sum_singleton, Matrix.of_apply] at e1 e1'
    set A : Matrix (Fin 2) (Fin (v0 :: vs).length) ℝ := Matrix.of fun i j => (v0 :: vs).get j i - v0 i with hA
    set w := L.qrQ A 0 (Fin.castSucc 0) with hw
    have hv := (hmem v0).1 (by simp)
    have hw1 : w * w ≤ 1 := by
      have := congrFun (congrFun (hL.orth A) 0) 0
      rw [Matrix.mul_apply, Fin.sum_univ_two] at this
      simp only [transpose_apply, Matrix.one_apply_eq] at this
      have hw' : w = L.qrQ A 0 0 := rfl
      rw [hw']
      nlinarith [mul_self_nonneg (L.qrQ A 1 0)]
    have hrow : ∀ a ∈ List.ofFn (L.qrR A (Fin.castSucc 0)), a = 0 ∨ a = -2 * v0 0 * w := by
      intro a ha
      obtain ⟨j, rfl⟩ := (List.mem_ofFn' _ _).1 ha
      have hR : L.qrR A = (L.qrQ A)ᵀ * A.submatrix id (L.qrP A) := by
        rw [← hL.factor A, ← Matrix.mul_assoc, hL.orth, Matrix.one_mul]
      have := congrFun (congrFun hR (Fin.castSucc 0)) j
      rw [this, Matrix.mul_apply, Fin.sum_univ_two]
      simp only [transpose_apply, submatrix_apply, id_eq, hA, Matrix.of_apply]
      rw [← hA, ← hw]
      have hj := (hmem _).1 (List.get_mem (v0 :: vs) (L.qrP A j))
      rw [hj.2, hv.2]
      rcases hj.1 with a | a <;> rcases hv.1 with b | b <;> rw [a, b]
      · left; ring
      · right; ring
      · right; ring
      · left; ring
    have hne : List.ofFn (L.qrR A (Fin.castSucc 0)) ≠ [] := by simp
    have hmin := hrow _ (rowMin_mem hne)
    have hmax := hrow _ (rowMax_mem hne)
    set lo := rowMin (List.ofFn (L.qrR A (Fin.castSucc 0)))
    set hi := rowMax (List.ofFn (L.qrR A (Fin.castSucc 0)))
    have b := abs_le.1 (hx 0)
    have b' := abs_le.1 (hx' 0)
    set s := x 0
    set s' := x' 0
    simp only [Matrix.cons_val_zero] at e1 e1'
    push_cast at e1 e1'
    have hww := mul_self_nonneg w
    rcases hmin with m | m <;> rcases hmax with M | M <;> rcases hv.1 with v | v <;> rw [m, M, v] at e1 e1' <;> nlinarith

end YRoots.Legacy
