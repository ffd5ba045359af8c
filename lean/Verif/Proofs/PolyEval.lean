import Verif.Proofs.PolyArith

/-!
# Horner and Clenshaw evaluation of arrays with broadcasting
-/

set_option linter.unusedSectionVars false
set_option linter.unusedVariables false
set_option linter.unusedSimpArgs false

open Finset

namespace YRoots

variable {n m : ℕ} {K : Type*}

namespace PArr

theorem get_slice (A : PArr (m + 1) K) (j : ℕ) (k g p) : (A.slice j).get k g p = A.get (Fin.cons j k) g p := rfl

theorem blen_one {a b : ℕ} (h : blen a b = 1) : a = 1 ∧ b = 1 := by
  unfold blen at h; split_ifs at h with h1
  · exact ⟨h1, h⟩
  · exact absurd h h1

theorem get_bin (f : K → K → K) (A B : PArr m K) (k g p) : (bin f A B).get k g p = f (A.get k g p) (B.get k g p) := by
  unfold get bin
  dsimp only
  by_cases h : blen A.len B.len = 1
  · obtain ⟨h1, h2⟩ := blen_one h
    simp [h, h1, h2, get]
  · simp [h, get]

theorem get_mulVec [Mul K] (A : PArr m K) (N : ℕ) (x : ℕ → K) (k g p) :
    (A.mulVec N x).get k g p = A.get k g p * x (if N = 1 then 0 else p) := by
  unfold get mulVec
  dsimp only
  by_cases h : blen A.len N = 1
  · obtain ⟨h1, h2⟩ := blen_one h
    simp [h, h1, h2, get]
  · simp [h, get]

theorem get_zerosLike [Zero K] (A : PArr m K) (k g p) : (A.zerosLike).get k g p = 0 := rfl

end PArr

/-- Specification: the `j`-th basis function. -/
noncomputable def Basis.fn [CommRing K] : Basis → ℕ → K → K
  | .power, j, x => x ^ j
  | .cheb, j, x => chebT j x

/-- Length of the last axis after evaluating one axis. -/
def lenAfter (B : Basis) (N L len : ℕ) : ℕ :=
  if B = .power ∧ L = 1 then len else PArr.blen len N

section
variable [Field K]

/-- What evaluation along the first axis must produce. -/
structure EvalAxis (B : Basis) (N : ℕ) (x : ℕ → K) (A : PArr (m + 1) K) (R : PArr m K) : Prop where
  shape : ∀ i, R.shape i = A.shape i.succ
  pre : R.pre = A.pre
  len : R.len = lenAfter B N (A.shape 0) A.len
  val : ∀ k g p, R.get k g p = ∑ j ∈ range (A.shape 0), B.fn j (x (if N = 1 then 0 else p)) * A.get (Fin.cons j k) g p

theorem blen_lenOK {len N : ℕ} (h : len = 1 ∨ len = N) : PArr.blen len N = N := by
  unfold PArr.blen; rcases h with h | h <;> simp [h]

theorem polyval_ok (N : ℕ) (x : ℕ → K) (A : PArr (m + 1) K) (hL : 0 < A.shape 0) (hlen : A.len = 1 ∨ A.len = N) :
    EvalAxis .power N x A (polyval N x A) := by
  unfold polyval
  set L := A.shape 0 with hLdef
  have key : ∀ t, t ≤ L - 1 →
      let R := (List.range' 2 t).foldl (fun c0 i => PArr.bin (· + ·) (A.slice (L - i)) (c0.mulVec N x)) (A.slice (L - 1))
      (∀ i, R.shape i = A.shape i.succ) ∧ R.pre = A.pre ∧ R.len = (if t = 0 then A.len else N) ∧
      ∀ k g p, R.get k g p = ∑ j ∈ range (t + 1), x (if N = 1 then 0 else p) ^ j * A.get (Fin.cons (L - 1 - t + j) k) g p := by
    intro t
    induction t with
    | zero =>
      intro _
      refine ⟨fun i => rfl, rfl, rfl, fun k g p => ?_⟩
      simp [PArr.get_slice]
    | succ t ih =>
      intro ht
      obtain ⟨i1, i2, i3, i4⟩ := ih (by omega)
      rw [List.range'_concat, List.foldl_append, List.foldl_cons, List.foldl_nil]
      refine ⟨fun i => rfl, rfl, ?_, fun k g p => ?_⟩
      · change PArr.blen A.len (PArr.blen _ N) = _
        rw [i3, if_neg (show ¬ t + 1 = 0 by omega)]
        have h1 : PArr.blen (if t = 0 then A.len else N) N = N := blen_lenOK (by split_ifs <;> [exact hlen; exact .inr rfl])
        rw [h1]
        exact blen_lenOK hlen
      · rw [PArr.get_bin, PArr.get_mulVec, PArr.get_slice, i4, Finset.sum_range_succ' _ (t + 1), Finset.sum_mul, add_comm]
        congr 1
        · apply Finset.sum_congr rfl
          intro j hj
          rw [show L - 1 - t + j = L - 1 - (t + 1) + (j + 1) by omega]; ring
        · rw [one_mul, pow_zero, one_mul, show L - (2 + t) = L - 1 - (t + 1) + 0 by omega]
  obtain ⟨k1, k2, k3, k4⟩ := key (L - 1) le_rfl
  refine ⟨k1, k2, ?_, fun k g p => ?_⟩
  · rw [k3, lenAfter]
    by_cases h : L = 1
    · simp [h, ← hLdef]
    · rw [if_neg (by omega), if_neg (by simp [← hLdef, h]), blen_lenOK hlen]
  · rw [k4]
    rw [show L - 1 + 1 = L by omega]
    apply Finset.sum_congr rfl
    intro j _
    rw [Nat.sub_self, zero_add]; rfl

theorem chebval_ok (N : ℕ) (x : ℕ → K) (A : PArr (m + 1) K) (hL : 0 < A.shape 0) (hlen : A.len = 1 ∨ A.len = N) :
    EvalAxis .cheb N x A (chebval N x A) := by
  unfold chebval
  set L := A.shape 0 with hLdef
  have key : ∀ t, t ≤ L - 2 → 2 ≤ L →
      let R := (List.range' 3 t).foldl
        (fun c i => (PArr.bin (· - ·) (A.slice (L - i)) c.2, PArr.bin (· + ·) c.1 (c.2.mulVec N fun p => 2 * x p)))
        (A.slice (L - 2), A.slice (L - 1))
      (∀ i, R.1.shape i = A.shape i.succ) ∧ R.1.pre = A.pre ∧ (R.1.len = 1 ∨ R.1.len = N) ∧ (R.2.len = 1 ∨ R.2.len = N) ∧
      ∀ k g p, R.1.get k g p * chebT (L - 2 - t) (x (if N = 1 then 0 else p)) +
        R.2.get k g p * chebT (L - 1 - t) (x (if N = 1 then 0 else p)) =
        ∑ j ∈ range (t + 2), chebT (L - 2 - t + j) (x (if N = 1 then 0 else p)) * A.get (Fin.cons (L - 2 - t + j) k) g p := by
    intro t
    induction t with
    | zero =>
      intro _ h2
      refine ⟨fun i => rfl, rfl, hlen, hlen, fun k g p => ?_⟩
      simp only [List.range'_zero, List.foldl_nil, PArr.get_slice, Finset.sum_range_succ, Finset.sum_range_zero, zero_add,
        Nat.sub_zero, Nat.add_zero, show L - 2 + 1 = L - 1 by omega]
      ring
    | succ t ih =>
      intro ht h2
      obtain ⟨i1, i2, i3, i4, i5⟩ := ih (by omega) h2
      rw [List.range'_concat, List.foldl_append, List.foldl_cons, List.foldl_nil]
      refine ⟨fun i => rfl, rfl, ?_, ?_, fun k g p => ?_⟩
      · change PArr.blen A.len _ = 1 ∨ PArr.blen A.len _ = N
        rcases hlen with h | h
        · simp only [h, PArr.blen, if_true]; exact i4
        · simp only [PArr.blen]; split_ifs with h1
          · exact i4
          · exact .inr h
      · right
        change PArr.blen _ (PArr.blen _ N) = N
        rw [blen_lenOK i4]
        exact blen_lenOK i3
      · have h5 := i5 k g p
        rw [PArr.get_bin, PArr.get_bin, PArr.get_mulVec, PArr.get_slice, Finset.sum_range_succ']
        rw [show L - (3 + 1 * t) = L - 2 - (t + 1) by omega]
        have e : ∑ j ∈ range (t + 2), chebT (L - 2 - (t + 1) + (j + 1)) (x (if N = 1 then 0 else p)) *
            A.get (Fin.cons (L - 2 - (t + 1) + (j + 1)) k) g p =
            ∑ j ∈ range (t + 2), chebT (L - 2 - t + j) (x (if N = 1 then 0 else p)) * A.get (Fin.cons (L - 2 - t + j) k) g p := by
          apply Finset.sum_congr rfl
          intro j _
          rw [show L - 2 - (t + 1) + (j + 1) = L - 2 - t + j by omega]
        rw [e, ← h5]
        obtain ⟨s, hs⟩ : ∃ s, L - 2 - (t + 1) = s := ⟨_, rfl⟩
        rw [hs, show L - 2 - t = s + 1 by omega, show L - 1 - (t + 1) = s + 1 by omega, show L - 1 - t = s + 2 by omega,
          chebT_add_two]
        simp only [Nat.add_zero]
        ring
  rcases Nat.lt_trichotomy L 2 with h | h | h
  · have h1 : L = 1 := by omega
    simp only [h1, if_true]
    refine ⟨fun i => rfl, rfl, ?_, fun k g p => ?_⟩
    · rw [lenAfter, if_neg (by simp)]
      change PArr.blen A.len (PArr.blen A.len N) = _
      rw [blen_lenOK hlen, blen_lenOK hlen]
    · rw [PArr.get_bin, PArr.get_mulVec, PArr.get_zerosLike, PArr.get_slice, ← hLdef, h1]
      simp [Basis.fn]
  · simp only [h, if_true, show ¬ (2 : ℕ) = 1 by omega, if_false]
    refine ⟨fun i => rfl, rfl, ?_, fun k g p => ?_⟩
    · rw [lenAfter, if_neg (by simp)]
      change PArr.blen A.len (PArr.blen A.len N) = _
      rw [blen_lenOK hlen, blen_lenOK hlen]
    · rw [PArr.get_bin, PArr.get_mulVec, PArr.get_slice, PArr.get_slice, ← hLdef, h]
      simp [Basis.fn, Finset.sum_range_succ]; ring
  · simp only [show ¬ L = 1 by omega, show ¬ L = 2 by omega, if_false]
    obtain ⟨k1, k2, k3, k4, k5⟩ := key (L - 2) le_rfl (by omega)
    refine ⟨k1, k2, ?_, fun k g p => ?_⟩
    · rw [lenAfter, if_neg (by simp)]
      change PArr.blen _ (PArr.blen _ N) = _
      rw [blen_lenOK k4, blen_lenOK k3, blen_lenOK hlen]
    · have h5 := k5 k g p
      rw [PArr.get_bin, PArr.get_mulVec]
      simp only [Nat.sub_self, show L - 1 - (L - 2) = 1 by omega, chebT_zero, chebT_one, mul_one, zero_add,
        show L - 2 + 2 = L by omega] at h5
      rw [h5]; rfl

theorem basisVal_ok (B : Basis) (N : ℕ) (x : ℕ → K) (A : PArr (m + 1) K) (hL : 0 < A.shape 0)
    (hlen : A.len = 1 ∨ A.len = N) : EvalAxis B N x A (basisVal B N x A) := by
  cases B
  · exact polyval_ok N x A hL hlen
  · exact chebval_ok N x A hL hlen

theorem sum_piFinset_cons {A : Type*} [AddCommMonoid A] (s : Fin (m + 1) → ℕ) (f : (Fin (m + 1) → ℕ) → A) :
    ∑ k ∈ Fintype.piFinset (fun i => range (s i)), f k =
      ∑ k ∈ Fintype.piFinset (fun i : Fin m => range (s i.succ)), ∑ j ∈ range (s 0), f (Fin.cons j k) := by
  rw [← Finset.sum_product']
  refine Finset.sum_nbij' (fun k => (fun i => k i.succ, k 0)) (fun q => Fin.cons q.2 q.1) ?_ ?_ ?_ ?_ ?_
  · intro k hk
    rw [Fintype.mem_piFinset] at hk
    rw [Finset.mem_product, Fintype.mem_piFinset]
    exact ⟨fun i => hk i.succ, hk 0⟩
  · intro q hq
    rw [Finset.mem_product, Fintype.mem_piFinset] at hq
    rw [Fintype.mem_piFinset]
    intro i
    refine Fin.cases ?_ (fun i => ?_) i
    · simpa using hq.2
    · simpa using hq.1 i
  · intro k _
    funext i
    refine Fin.cases ?_ (fun i => ?_) i <;> simp
  · intro q _
    simp
  · intro k _
    congr 1
    funext i
    refine Fin.cases ?_ (fun i => ?_) i <;> simp

/-- Length of the result of evaluating all axes. -/
theorem callLoop_ok (B : Basis) (N : ℕ) (pts : ℕ → ℕ → K) : ∀ (m j : ℕ) (A : PArr m K), (∀ i, 0 < A.shape i) →
    (A.len = 1 ∨ A.len = N) →
    let R := callLoop B N pts m j A
    (R.len = if B = .power ∧ (∀ i, A.shape i = 1) ∨ m = 0 then A.len else N) ∧ R.pre = A.pre ∧
    ∀ g p, R.get Fin.elim0 g p = ∑ k ∈ Fintype.piFinset (fun i => range (A.shape i)),
      A.get k g p * ∏ i, B.fn (k i) (pts (if N = 1 then 0 else p) (j + i)) := by
  intro m
  induction m with
  | zero =>
    intro j A _ _
    refine ⟨by simp [callLoop], rfl, fun g p => ?_⟩
    have : Fintype.piFinset (fun i : Fin 0 => range (A.shape i)) = {Fin.elim0} := by
      ext k; simp only [Fintype.mem_piFinset, mem_singleton]
      exact ⟨fun _ => Subsingleton.elim _ _, fun _ i => i.elim0⟩
    rw [this]; simp [callLoop]
  | succ m ih =>
    intro j A hA hlen
    have hE := basisVal_ok B N (fun p => pts p j) A (hA 0) hlen
    set R := basisVal B N (fun p => pts p j) A with hR
    have hRlen : R.len = 1 ∨ R.len = N := by
      rw [hE.len, lenAfter]
      split_ifs
      · exact hlen
      · exact .inr (blen_lenOK hlen)
    obtain ⟨i1, i2, i3⟩ := ih (j + 1) R (fun i => by rw [hE.shape]; exact hA _) hRlen
    refine ⟨?_, ?_, fun g p => ?_⟩
    · rw [callLoop, i1, hE.len, lenAfter, blen_lenOK hlen]
      have hall : (∀ i, A.shape i = 1) ↔ A.shape 0 = 1 ∧ ∀ i, R.shape i = 1 := by
        simp only [hE.shape]
        exact Fin.forall_fin_succ
      by_cases hB : B = .power
      · simp only [hB, true_and, hall]
        by_cases h0 : A.shape 0 = 1
        · by_cases h1 : ∀ i, R.shape i = 1
          · simp [h0, h1]
          · have : m ≠ 0 := by rintro rfl; exact h1 fun i => i.elim0
            simp [h0, h1, this]
        · simp [h0]
      · simp [hB]
    · rw [callLoop, i2, hE.pre]
    · rw [callLoop, i3, sum_piFinset_cons]
      have hs : (fun i => range (R.shape i)) = fun i : Fin m => range (A.shape i.succ) := by
        funext i; rw [hE.shape]
      rw [hs]
      apply Finset.sum_congr rfl
      intro k _
      rw [hE.val, Finset.sum_mul]
      apply Finset.sum_congr rfl
      intro c _
      rw [Fin.prod_univ_succ]
      simp only [Fin.cons_zero, Fin.cons_succ, Fin.val_zero, Nat.add_zero, Fin.val_succ]
      have : ∏ i : Fin m, B.fn (k i) (pts (if N = 1 then 0 else p) (j + 1 + i)) =
          ∏ i : Fin m, B.fn (k i) (pts (if N = 1 then 0 else p) (j + (i + 1))) :=
        Finset.prod_congr rfl fun i _ => by rw [show j + 1 + (i : ℕ) = j + (i + 1) by ring]
      rw [this]; ring

/-- Length of one grid axis of the result. -/
def gridLen (B : Basis) (N L : ℕ) : ℕ := if B = .power ∧ L = 1 then 1 else N

theorem gridLoop_ok (B : Basis) (N : ℕ) (xyz : ℕ → ℕ → K) : ∀ (m j : ℕ) (A : PArr m K), (∀ i, 0 < A.shape i) →
    let R := gridLoop B N xyz m j A
    R.pre ++ [R.len] = A.pre ++ [A.len] ++ List.ofFn (fun i => gridLen B N (A.shape i)) ∧
    ∀ (G : ℕ → ℕ) (X : Fin m → ℕ), (∀ i, X i < N) →
      (∀ i : Fin m, G (A.pre.length + 1 + i) = if gridLen B N (A.shape i) = 1 then 0 else X i) →
      R.val Fin.elim0 G (G R.pre.length) = ∑ k ∈ Fintype.piFinset (fun i => range (A.shape i)),
        A.val k G (G A.pre.length) * ∏ i, B.fn (k i) (xyz (X i) (j + i)) := by
  intro m
  induction m with
  | zero =>
    intro j A _
    refine ⟨by simp [gridLoop], fun G X _ _ => ?_⟩
    have : Fintype.piFinset (fun i : Fin 0 => range (A.shape i)) = {Fin.elim0} := by
      ext k; simp only [Fintype.mem_piFinset, mem_singleton]
      exact ⟨fun _ => Subsingleton.elim _ _, fun _ i => i.elim0⟩
    rw [this]; simp [gridLoop]
  | succ m ih =>
    intro j A hA
    have hE := basisVal_ok B N (fun p => xyz p j) (addAxis A) (hA 0) (.inl rfl)
    set R := basisVal B N (fun p => xyz p j) (addAxis A) with hR
    have hsh : ∀ i, (addAxis A).shape i = A.shape i := fun _ => rfl
    have hpre : R.pre = A.pre ++ [A.len] := hE.pre
    have hlen : R.len = gridLen B N (A.shape 0) := by
      rw [hE.len]; unfold lenAfter gridLen; rfl
    obtain ⟨i1, i2⟩ := ih (j + 1) R (fun i => by rw [hE.shape]; exact hA _)
    refine ⟨?_, fun G X hX hG => ?_⟩
    · rw [gridLoop, i1, hpre, hlen, List.ofFn_succ]
      simp only [hE.shape, hsh, List.append_assoc, List.cons_append, List.nil_append]
    · have hq : R.pre.length = A.pre.length + 1 := by rw [hpre]; simp
      rw [gridLoop, i2 G (fun i => X i.succ) (fun i => hX _) (fun i => by
        have := hG i.succ
        rw [hE.shape, hsh, hq, ← this]; congr 1; simp only [Fin.val_succ]; ring), sum_piFinset_cons]
      have hs : (fun i => range (R.shape i)) = fun i : Fin m => range (A.shape i.succ) := by
        funext i; rw [hE.shape]; rfl
      rw [hs]
      apply Finset.sum_congr rfl
      intro k _
      have h0 := hG 0
      simp only [Fin.val_zero, Nat.add_zero] at h0
      have hget : R.val k G (G R.pre.length) = R.get k G (G R.pre.length) := by
        unfold PArr.get
        split_ifs with h1
        · rw [hq, h0, if_pos (by rw [← hlen, h1])]
        · rfl
      rw [hget, hE.val, Finset.sum_mul]
      apply Finset.sum_congr rfl
      intro c hc
      have hfn : B.fn c (xyz (if N = 1 then 0 else G R.pre.length) j) = B.fn c (xyz (X 0) j) := by
        by_cases h1 : B = .power ∧ A.shape 0 = 1
        · have hc0 : c = 0 := by
            rw [hsh, h1.2] at hc; simpa using hc
          rw [hc0, h1.1]; simp [Basis.fn]
        · have hX0 := hX 0
          by_cases hN : N = 1
          · rw [if_pos hN, show X 0 = 0 by omega]
          · rw [if_neg hN, hq, h0, gridLen, if_neg h1, if_neg hN]
      rw [hfn, Fin.prod_univ_succ]
      simp only [Fin.cons_zero, Fin.cons_succ, Fin.val_zero, Nat.add_zero, Fin.val_succ]
      have : ∏ i : Fin m, B.fn (k i) (xyz (X i.succ) (j + 1 + i)) = ∏ i : Fin m, B.fn (k i) (xyz (X i.succ) (j + (i + 1))) :=
        Finset.prod_congr rfl fun i _ => by rw [show j + 1 + (i : ℕ) = j + (i + 1) by ring]
      rw [this]
      change B.fn c (xyz (X 0) j) * A.val (Fin.cons c k) G (G A.pre.length) * _ = _
      ring

end

end YRoots
