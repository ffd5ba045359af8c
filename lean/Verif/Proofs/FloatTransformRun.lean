import Verif.Proofs.FloatTransformSeq

/-!
# Helper lemmas: the runs of the re-expansion with `exact=True`
-/

set_option linter.unusedSectionVars false

namespace YRoots

open Finset

section Run

variable {ι : Type*} {fl : ℝ → ℝ} (hfl : RoundsToNearest 53 fl) {thr : ℝ} {coeffs : ℕ → ι → ℝ} {α β : ℝ}

/-- Nothing is stored beyond `maxRow`, and the values are representable. -/
structure EInv (s : EState ℝ (ι → ℝ)) : Prop where
  two_le : 2 ≤ s.maxRow
  z1 : ∀ j, s.maxRow ≤ j → s.arr1 j = 0
  z2 : ∀ j, s.maxRow ≤ j → s.arr2 j = 0
  z3 : ∀ j, s.maxRow ≤ j → s.arr3 j = 0
  y1 : ∀ j, s.maxRow ≤ j → s.arr1E j = 0
  y2 : ∀ j, s.maxRow ≤ j → s.arr2E j = 0
  y3 : ∀ j, s.maxRow ≤ j → s.arr3E j = 0
  zo : ∀ j, s.maxRow ≤ j → s.out j = 0
  f1 : ∀ j, IsFloat 53 (s.arr1 j)
  f2 : ∀ j, IsFloat 53 (s.arr2 j)

theorem eStepWith_maxRow_le (c : ι → ℝ) (r0 r1 : ℝ × ℝ) (mid : ℕ → ℝ × ℝ) (last fin : ℝ × ℝ) (s : EState ℝ (ι → ℝ)) :
    (eStepWith fl thr c r0 r1 mid last fin s).maxRow ≤ s.maxRow + 1 := by
  unfold eStepWith
  simp only []
  split <;> omega

include hfl

theorem EInv.step {c : ι → ℝ} {r0 r1 : ℝ × ℝ} {mid : ℕ → ℝ × ℝ} {last fin : ℝ × ℝ} {s s' : EState ℝ (ι → ℝ)} (hs : EInv s)
    (hs' : s' = eStepWith fl thr c r0 r1 mid last fin s) (hrow : s'.maxRow = s.maxRow + 1)
    (hok : ∀ i ≤ s.maxRow, SpotOK α β s.arr1 s.arr2 s.arr1E s.arr2E i (spotOf r0 r1 mid last fin s.maxRow i)) :
    EInv s' ∧ s'.arr1 = s.arr2 ∧ s'.arr1E = s.arr2E ∧ (∀ i, SpotOK α β s.arr1 s.arr2 s.arr1E s.arr2E i (s'.arr2 i, s'.arr2E i)) ∧
      ∀ i k, s'.out i k = fl (s.out i k + fl (c k * fl (s'.arr2 i + s'.arr2E i))) := by
  have hR := hs.two_le
  have sp := eStepWith_spec fl thr c r0 r1 mid last fin s hR
  rw [← hs'] at sp
  have h1 : s'.arr1 = s.arr2 := by rw [hs']; rfl
  have h1E : s'.arr1E = s.arr2E := by rw [hs']; rfl
  have h3 : s'.arr3 = s.arr1 := by rw [hs']; rfl
  have h3E : s'.arr3E = s.arr1E := by rw [hs']; rfl
  have hz : ∀ j, s.maxRow < j → s'.arr2 j = 0 ∧ s'.arr2E j = 0 ∧ s'.out j = 0 := by
    intro j hj
    obtain ⟨q1, q2, q3⟩ := sp j
    rw [if_neg (by omega)] at q1 q2 q3
    exact ⟨by rw [q1, hs.z3 j hj.le], by rw [q2, hs.y3 j hj.le], by rw [q3, hs.zo j hj.le]⟩
  have hsp : ∀ i, SpotOK α β s.arr1 s.arr2 s.arr1E s.arr2E i (s'.arr2 i, s'.arr2E i) := by
    intro i
    by_cases hi : i ≤ s.maxRow
    · obtain ⟨q1, q2, -⟩ := sp i
      rw [if_pos hi] at q1 q2
      rw [q1, q2]
      exact hok i hi
    · obtain ⟨q1, q2, -⟩ := hz i (by omega)
      rw [q1, q2]
      have m1 : ∀ b : ℕ → ℝ, (∀ j, s.maxRow ≤ j → b j = 0) → mulX b i = 0 := by
        intro b hb
        rw [mulX_of_two_le _ (by omega), hb (i - 1) (by omega), hb (i + 1) (by omega), add_zero]
      refine ⟨isFloat_zero, 0, ?_, ?_, ?_⟩
      · rw [hs.z1 i (by omega), hs.z2 i (by omega), m1 _ hs.z2]; simp
      · rw [abs_zero]
        exact mul_nonneg (by norm_num) (maj_nonneg _ _ _ _ _)
      · rw [hs.y1 i (by omega), hs.y2 i (by omega), m1 _ hs.y2]
        simp only [neg_zero, mul_zero, add_zero, sub_zero, abs_zero]
        have k1 := maj_nonneg α β s.arr1E s.arr2E i
        have k2 := maj_nonneg α β s.arr1 s.arr2 i
        exact mul_nonneg (by norm_num) (add_nonneg k1 (mul_nonneg (by norm_num) k2))
  refine ⟨⟨by omega, ?_, ?_, ?_, ?_, ?_, ?_, ?_, ?_, ?_⟩, h1, h1E, hsp, ?_⟩
  · intro j hj; rw [h1]; exact hs.z2 j (by omega)
  · intro j hj; exact (hz j (by omega)).1
  · intro j hj; rw [h3]; exact hs.z1 j (by omega)
  · intro j hj; rw [h1E]; exact hs.y2 j (by omega)
  · intro j hj; exact (hz j (by omega)).2.1
  · intro j hj; rw [h3E]; exact hs.y1 j (by omega)
  · intro j hj; exact (hz j (by omega)).2.2
  · rw [h1]; exact hs.f2
  · intro j; exact (hsp j).1
  · intro i k
    by_cases hi : i ≤ s.maxRow
    · obtain ⟨q1, q2, q3⟩ := sp i
      rw [if_pos hi] at q1 q2 q3
      rw [q3, q1, q2]
    · obtain ⟨q1, q2, q3⟩ := hz i (by omega)
      rw [q1, q2, q3, hs.zo i (by omega)]
      simp [fl_zero hfl]

/-- A run of `eStepWith` whose spots are in order and which drops no row. -/
theorem run_seq (st : ℕ → EState ℝ (ι → ℝ)) (h0 : EInv (st 0)) (hr0 : (st 0).maxRow = 2)
    (ha0 : (st 0).arr1 = Function.update (fun _ => 0) 0 1) (ha1 : (st 0).arr2 = Function.update (Function.update (fun _ => 0) 0 β) 1 α)
    (he0 : (st 0).arr1E = fun _ => 0) (he1 : (st 0).arr2E = fun _ => 0)
    (ho0 : ∀ i k, Near (1 / 2 ^ 53) 2 ((st 0).out i k) (coeffs 0 k * (st 0).arr1 i + coeffs 1 k * (st 0).arr2 i)
      (|coeffs 0 k| * |(st 0).arr1 i| + |coeffs 1 k| * |(st 0).arr2 i|))
    (hst : ∀ m, ∃ (r0 r1 : ℝ × ℝ) (mid : ℕ → ℝ × ℝ) (last fin : ℝ × ℝ),
      st (m + 1) = eStepWith fl thr (coeffs (m + 2)) r0 r1 mid last fin (st m) ∧
      (EInv (st m) → ∀ i ≤ (st m).maxRow, SpotOK α β (st m).arr1 (st m).arr2 (st m).arr1E (st m).arr2E i (spotOf r0 r1 mid last fin (st m).maxRow i)))
    (M : ℕ) (hM : (st M).maxRow = M + 2) :
    (∃ a e : ℕ → ℕ → ℝ, ESeq fl coeffs α β M a e (fun c => (st c).out)) ∧ ∀ i, M + 2 ≤ i → (st M).out i = 0 := by
  have hle : ∀ m, (st (m + 1)).maxRow ≤ (st m).maxRow + 1 := by
    intro m
    obtain ⟨r0, r1, mid, last, fin, q, -⟩ := hst m
    rw [q]
    exact eStepWith_maxRow_le _ _ _ _ _ _ _
  have hlow : ∀ j m, (st (m + j)).maxRow ≤ (st m).maxRow + j := by
    intro j
    induction j with
    | zero => intro m; exact le_rfl
    | succ j ih =>
      intro m
      have := hle (m + j)
      have := ih m
      rw [← add_assoc]
      omega
  have hrow : ∀ m ≤ M, (st m).maxRow = m + 2 := by
    intro m hm
    have k1 := hlow (M - m) m
    have k2 := hlow m 0
    rw [show m + (M - m) = M by omega, hM] at k1
    rw [hr0, zero_add] at k2
    omega
  have hinv : ∀ m ≤ M, EInv (st m) := by
    intro m
    induction m with
    | zero => intro _; exact h0
    | succ m ih =>
      intro hm
      obtain ⟨r0, r1, mid, last, fin, q, hok⟩ := hst m
      have := ih (by omega)
      exact (this.step hfl q (by rw [hrow (m + 1) hm, hrow m (by omega)]) (hok this)).1
  have hstep : ∀ m < M, (st (m + 1)).arr1 = (st m).arr2 ∧ (st (m + 1)).arr1E = (st m).arr2E ∧
      (∀ i, SpotOK α β (st m).arr1 (st m).arr2 (st m).arr1E (st m).arr2E i ((st (m + 1)).arr2 i, (st (m + 1)).arr2E i)) ∧
      ∀ i k, (st (m + 1)).out i k = fl ((st m).out i k + fl (coeffs (m + 2) k * fl ((st (m + 1)).arr2 i + (st (m + 1)).arr2E i))) := by
    intro m hm
    obtain ⟨r0, r1, mid, last, fin, q, hok⟩ := hst m
    have := hinv m hm.le
    exact (this.step hfl q (by rw [hrow (m + 1) hm, hrow m hm.le]) (hok this)).2
  -- the columns
  obtain ⟨a, haz, has⟩ : ∃ a : ℕ → ℕ → ℝ, a 0 = (st 0).arr1 ∧ ∀ c, a (c + 1) = (st c).arr2 :=
    ⟨fun c => Nat.casesOn c (st 0).arr1 fun c => (st c).arr2, rfl, fun _ => rfl⟩
  obtain ⟨e, hez, hes⟩ : ∃ e : ℕ → ℕ → ℝ, e 0 = (st 0).arr1E ∧ ∀ c, e (c + 1) = (st c).arr2E :=
    ⟨fun c => Nat.casesOn c (st 0).arr1E fun c => (st c).arr2E, rfl, fun _ => rfl⟩
  have ha : ∀ m ≤ M, a m = (st m).arr1 := by
    intro m hm
    cases m with
    | zero => exact haz
    | succ m => rw [has, (hstep m hm).1]
  have he : ∀ m ≤ M, e m = (st m).arr1E := by
    intro m hm
    cases m with
    | zero => exact hez
    | succ m => rw [hes, (hstep m hm).2.1]
  refine ⟨⟨a, e, haz.trans ha0, (has 0).trans ha1, hez.trans he0, (hes 0).trans he1, ?_, ?_, ?_, ?_, ?_⟩, ?_⟩
  · intro c hc i hi
    cases c with
    | zero => rw [haz, ha0]; simp [show i ≠ 0 by omega]
    | succ c => rw [has]; exact (hinv c (by omega)).z2 i (by rw [hrow c (by omega)]; omega)
  · intro c hc i hi
    cases c with
    | zero => rw [hez, he0]
    | succ c => rw [hes]; exact (hinv c (by omega)).y2 i (by rw [hrow c (by omega)]; omega)
  · intro c hc i
    rw [ha c hc.le, he c hc.le, has c, hes c, has (c + 1), hes (c + 1)]
    exact (hstep c hc).2.2.1 i
  · intro i k
    rw [haz, has 0]
    exact ho0 i k
  · intro c hc i k
    rw [has (c + 1), hes (c + 1)]
    exact (hstep c hc).2.2.2 i k
  · intro i hi
    exact (hinv M le_rfl).zo i (by rw [hrow M le_rfl]; exact hi)

end Run

section Variants

variable {ι : Type*} {fl : ℝ → ℝ} (hfl : RoundsToNearest 53 fl) (coeffs : ℕ → ι → ℝ) {α β : ℝ}

include hfl

theorem spotOf_ok {a1 a2 e1 e2 : ℕ → ℝ} {r0 r1 : ℝ × ℝ} {mid : ℕ → ℝ × ℝ} {last fin : ℝ × ℝ} {R : ℕ}
    (h0 : SpotOK α β a1 a2 e1 e2 0 r0) (h1 : SpotOK α β a1 a2 e1 e2 1 r1) (hm : ∀ i, 2 ≤ i → SpotOK α β a1 a2 e1 e2 i (mid i))
    (hl : SpotOK α β a1 a2 e1 e2 (R - 1) last) (hf : SpotOK α β a1 a2 e1 e2 R fin) (i : ℕ) :
    SpotOK α β a1 a2 e1 e2 i (spotOf r0 r1 mid last fin R i) := by
  unfold spotOf
  split
  · rename_i h; rw [h]; exact hf
  · split
    · rename_i h; rw [h]; exact hl
    · split
      · rename_i h; rw [h]; exact h0
      · split
        · rename_i h; rw [h]; exact h1
        · exact hm i (by omega)

theorem init_out (c0 c1 : ℝ) {x : ℝ} (hx : Near (1 / 2 ^ 53) 1 x (c1 * β) (|c1| * |β|)) : Near (1 / 2 ^ 53) 2 (fl (c0 + x)) (c0 * 1 + c1 * β) (|c0| * |(1 : ℝ)| + |c1| * |β|) := by
  have := addN hfl ((refl0 hfl c0).mono (by norm_num) (by norm_num : 0 ≤ 1) le_rfl) hx le_rfl
  rwa [mul_one, abs_one, mul_one]

/-- The general variant. -/
theorem eRun_seq (hα : IsFloat 53 α) (hβ : IsFloat 53 β) (thr : ℝ) (M : ℕ)
    (hM : ((List.range' 2 M).foldl (eStepF fl thr coeffs α β) (eInitF fl coeffs α β)).maxRow = M + 2) :
    ∃ (a e : ℕ → ℕ → ℝ) (o : ℕ → ℕ → ι → ℝ), ESeq fl coeffs α β M a e o ∧
      o M = ((List.range' 2 M).foldl (eStepF fl thr coeffs α β) (eInitF fl coeffs α β)).out ∧ ∀ i, M + 2 ≤ i → o M i = 0 := by
  obtain ⟨st, hst⟩ : ∃ st : ℕ → EState ℝ (ι → ℝ), st = fun m => (List.range' 2 m).foldl (eStepF fl thr coeffs α β) (eInitF fl coeffs α β) := ⟨_, rfl⟩
  have hsucc : ∀ m, st (m + 1) = eStepF fl thr coeffs α β (st m) (m + 2) := by
    intro m
    rw [hst]
    simp only [List.range'_1_concat, List.foldl_append, List.foldl_cons, List.foldl_nil]
    rw [Nat.add_comm 2 m]
  have hz : st 0 = eInitF fl coeffs α β := by rw [hst]; rfl
  have f1 : IsFloat 53 (1 : ℝ) := by simpa using isFloat_zp (K := ℝ) (p := 53) (by norm_num) 0
  have hinv : EInv (st 0) := by
    rw [hz]
    refine ⟨le_rfl, ?_, ?_, fun _ _ => rfl, fun _ _ => rfl, fun _ _ => rfl, fun _ _ => rfl, ?_, ?_, ?_⟩
    · intro j hj
      have : j ≠ 0 := by simp [eInitF] at hj; omega
      simp [eInitF, this]
    · intro j hj
      have : j ≠ 0 ∧ j ≠ 1 := by simp [eInitF] at hj; omega
      simp [eInitF, this.1, this.2]
    · intro j hj
      have : j ≠ 0 ∧ j ≠ 1 := by simp [eInitF] at hj; omega
      simp [eInitF, this.1, this.2]
      rfl
    · intro j
      by_cases h : j = 0
      · subst h; simpa [eInitF] using f1
      · simpa [eInitF, h] using isFloat_zero
    · intro j
      by_cases h : j = 1
      · subst h; simpa [eInitF] using hα
      · by_cases h' : j = 0
        · subst h'; simpa [eInitF] using hβ
        · simpa [eInitF, h, h'] using isFloat_zero
  obtain ⟨⟨a, e, hs⟩, ho⟩ := run_seq hfl (thr := thr) (coeffs := coeffs) (α := α) (β := β) st hinv (by rw [hz]; rfl) (by rw [hz]; rfl) (by rw [hz]; rfl)
    (by rw [hz]; rfl) (by rw [hz]; rfl) (by
      intro i k
      rw [hz]
      by_cases h0 : i = 0
      · subst h0
        have n1 := mulN hfl (refl0 hfl (coeffs 1 k)) β
        rw [mul_comm β (coeffs 1 k), mul_comm |β|] at n1
        have := init_out hfl (coeffs 0 k) (coeffs 1 k) n1
        simp only [eInitF, Function.update_self, ne_eq, zero_ne_one, not_false_eq_true, Function.update_of_ne]
        rwa [mul_comm β]
      · by_cases h1 : i = 1
        · subst h1
          have n1 := mulN hfl (refl0 hfl (coeffs 1 k)) α
          rw [mul_comm α (coeffs 1 k), mul_comm |α|] at n1
          have := n1.fl (by norm_num) (fl_rel' hfl)
          simp only [eInitF, Function.update_self, ne_eq, one_ne_zero, not_false_eq_true, Function.update_of_ne]
          rw [zero_add, mul_comm α]
          simpa using this
        · simp only [eInitF, ne_eq, h0, h1, not_false_eq_true, Function.update_of_ne]
          exact ⟨by simp, by simp⟩) (by
      intro m
      refine ⟨_, _, _, _, _, hsucc m, fun hi i _ => ?_⟩
      have hR := hi.two_le
      exact spotOf_ok hfl (spot0_ok hfl hα hβ hi.f1 hi.f2) (spot1_ok hfl hα hβ hi.f1 hi.f2) (fun i h2 => spotMid_ok hfl hα hβ hi.f1 hi.f2 h2)
        (spotLast_ok hfl hα hβ hi.f1 hi.f2 hR hi.z2 hi.y2) (spotFin_ok hfl hα hi.f2 hR hi.z1 hi.z2 hi.y1 hi.y2) i) M (by rw [hst]; exact hM)
  exact ⟨a, e, fun c => (st c).out, hs, by rw [hst], ho⟩

/-- The variant for halves. -/
theorem eRunSplit_seq {bs : ℝ} (hbs : bs = 1 ∨ bs = -1) (thr : ℝ) (M : ℕ)
    (hM : ((List.range' 2 M).foldl (eStepSplitF fl thr coeffs bs) (eInitSplitF fl coeffs bs)).maxRow = M + 2) :
    ∃ (a e : ℕ → ℕ → ℝ) (o : ℕ → ℕ → ι → ℝ), ESeq fl coeffs (1 / 2) (bs * (1 / 2)) M a e o ∧
      o M = ((List.range' 2 M).foldl (eStepSplitF fl thr coeffs bs) (eInitSplitF fl coeffs bs)).out ∧ ∀ i, M + 2 ≤ i → o M i = 0 := by
  obtain ⟨st, hst⟩ : ∃ st : ℕ → EState ℝ (ι → ℝ), st = fun m => (List.range' 2 m).foldl (eStepSplitF fl thr coeffs bs) (eInitSplitF fl coeffs bs) := ⟨_, rfl⟩
  have hsucc : ∀ m, st (m + 1) = eStepSplitF fl thr coeffs bs (st m) (m + 2) := by
    intro m
    rw [hst]
    simp only [List.range'_1_concat, List.foldl_append, List.foldl_cons, List.foldl_nil]
    rw [Nat.add_comm 2 m]
  have hz : st 0 = eInitSplitF fl coeffs bs := by rw [hst]; rfl
  have f1 : IsFloat 53 (1 : ℝ) := by simpa using isFloat_zp (K := ℝ) (p := 53) (by norm_num) 0
  have fh : IsFloat 53 (1 / 2 : ℝ) := isFloat_half f1
  have fb : IsFloat 53 (bs * (1 / 2)) := by
    rcases hbs with rfl | rfl
    · rwa [one_mul]
    · rw [neg_one_mul]; exact fh.neg
  have hab : |bs| = 1 := by rcases hbs with rfl | rfl <;> simp
  have hinv : EInv (st 0) := by
    rw [hz]
    refine ⟨le_rfl, ?_, ?_, fun _ _ => rfl, fun _ _ => rfl, fun _ _ => rfl, fun _ _ => rfl, ?_, ?_, ?_⟩
    · intro j hj
      have : j ≠ 0 := by simp [eInitSplitF] at hj; omega
      simp [eInitSplitF, this]
    · intro j hj
      have : j ≠ 0 ∧ j ≠ 1 := by simp [eInitSplitF] at hj; omega
      simp [eInitSplitF, this.1, this.2]
    · intro j hj
      have : j ≠ 0 ∧ j ≠ 1 := by simp [eInitSplitF] at hj; omega
      simp [eInitSplitF, this.1, this.2]
      rfl
    · intro j
      by_cases h : j = 0
      · subst h; simpa [eInitSplitF] using f1
      · simpa [eInitSplitF, h] using isFloat_zero
    · intro j
      by_cases h : j = 1
      · subst h; simpa [eInitSplitF] using fh
      · by_cases h' : j = 0
        · subst h'
          simp only [eInitSplitF, ne_eq, zero_ne_one, not_false_eq_true, Function.update_of_ne, Function.update_self]
          exact hfl.isFloat _
        · simpa [eInitSplitF, h, h'] using isFloat_zero
  obtain ⟨⟨a, e, hs⟩, ho⟩ := run_seq hfl (thr := thr) (coeffs := coeffs) (α := 1 / 2) (β := bs * (1 / 2)) st hinv (by rw [hz]; rfl) (by rw [hz]; rfl)
    (by rw [hz]; simp only [eInitSplitF]; rw [fl_eq hfl fb])
    (by rw [hz]; rfl) (by rw [hz]; rfl) (by
      intro i k
      rw [hz]
      by_cases h0 : i = 0
      · subst h0
        have n1 : Near (1 / 2 ^ 53) 1 (fl (fl (bs * coeffs 1 k) / 2)) (coeffs 1 k * (bs * (1 / 2))) (|coeffs 1 k| * |bs * (1 / 2)|) := by
          have e1 : fl (fl (bs * coeffs 1 k) / 2) = fl (bs * coeffs 1 k) / 2 := fl_eq hfl (isFloat_half (hfl.isFloat _))
          have n2 := mulN hfl (refl0 hfl (coeffs 1 k)) bs
          rw [e1]
          refine ⟨by rw [abs_mul], ?_⟩
          have := n2.err
          have e2 : fl (bs * coeffs 1 k) / 2 - coeffs 1 k * (bs * (1 / 2)) = (fl (bs * coeffs 1 k) - bs * coeffs 1 k) / 2 := by ring
          rw [e2, abs_div, abs_two, abs_mul, hab]
          rw [hab] at this
          norm_num at this ⊢
          linarith
        have := init_out hfl (coeffs 0 k) (coeffs 1 k) n1
        simp only [eInitSplitF, Function.update_self, ne_eq, zero_ne_one, not_false_eq_true, Function.update_of_ne]
        rwa [fl_eq hfl fb]
      · by_cases h1 : i = 1
        · subst h1
          have n1 := mulN hfl (refl0 hfl (coeffs 1 k)) (1 / 2)
          have := n1.fl (by norm_num) (fl_rel' hfl)
          simp only [eInitSplitF, Function.update_self, ne_eq, one_ne_zero, not_false_eq_true, Function.update_of_ne]
          have ed : coeffs 1 k / 2 = 1 / 2 * coeffs 1 k := by ring
          rw [zero_add, mul_zero, zero_add, abs_zero, mul_zero, zero_add, mul_comm (coeffs 1 k), mul_comm |coeffs 1 k|, ed]
          exact this
        · simp only [eInitSplitF, ne_eq, h0, h1, not_false_eq_true, Function.update_of_ne]
          exact ⟨by simp, by simp⟩) (by
      intro m
      refine ⟨_, _, _, _, _, hsucc m, fun hi i _ => ?_⟩
      have hR := hi.two_le
      exact spotOf_ok hfl (spotS0_ok hfl hbs hi.f1 hi.f2) (spotS1_ok hfl hbs hi.f1 hi.f2) (fun i h2 => spotSMid_ok hfl hbs hi.f1 hi.f2 h2)
        (spotSLast_ok hfl hbs hi.f1 hi.f2 hR hi.z2 hi.y2) (spotSFin_ok hfl hi.f2 hR hi.z1 hi.z2 hi.y1 hi.y2) i) M (by rw [hst]; exact hM)
  exact ⟨a, e, fun c => (st c).out, hs, by rw [hst], ho⟩

/-- The variant for halves drops no row when there are at most 100. -/
theorem eRunSplit_rows {bs : ℝ} (M : ℕ) (hM : M + 2 ≤ 100) :
    ((List.range' 2 M).foldl (eStepSplitF fl (fl (1 / 10 ^ 32)) coeffs bs) (eInitSplitF fl coeffs bs)).maxRow = M + 2 := by
  have hthr : fl (1 / 10 ^ 32) ≤ 1 / 2 ^ 106 := by
    have h1 : fl (1 / 2 ^ 106) = 1 / 2 ^ 106 := by
      apply fl_eq hfl
      have := isFloat_zp (K := ℝ) (p := 53) (by norm_num) (-106)
      rwa [zpow_neg, ← one_div] at this
    rw [← h1]
    exact fl_mono hfl (by norm_num)
  have key : ∀ M : ℕ, M + 2 ≤ 100 → ∀ s, s = (List.range' 2 M).foldl (eStepSplitF fl (fl (1 / 10 ^ 32)) coeffs bs) (eInitSplitF fl coeffs bs) →
      s.maxRow = M + 2 ∧ s.arr2 (M + 1) = 1 / 2 ^ (M + 1) ∧ s.arr2E (M + 1) = 0 := by
    intro M
    induction M with
    | zero =>
      intro _ s hs
      rw [hs]
      refine ⟨rfl, ?_, rfl⟩
      simp [eInitSplitF]
    | succ M ih =>
      intro hM s hs
      obtain ⟨i1, i2, i3⟩ := ih (by omega) _ rfl
      rw [List.range'_1_concat, List.foldl_append, List.foldl_cons, List.foldl_nil] at hs
      generalize (List.range' 2 M).foldl (eStepSplitF fl (fl (1 / 10 ^ 32)) coeffs bs) (eInitSplitF fl coeffs bs) = s0 at *
      have sp := eStepWith_spec fl (fl (1 / 10 ^ 32)) (coeffs (2 + M)) (spotS0 fl bs s0.arr1 s0.arr2 s0.arr1E s0.arr2E)
        (spotS1 fl bs s0.arr1 s0.arr2 s0.arr1E s0.arr2E) (spotSMid fl bs s0.arr1 s0.arr2 s0.arr1E s0.arr2E)
        (spotSLast fl bs s0.arr1 s0.arr2 s0.arr1E s0.arr2E (s0.maxRow - 1)) (spotSFin fl s0.arr2 s0.arr2E (s0.maxRow - 1)) s0 (by omega) (M + 2)
      have hs' : eStepWith fl (fl (1 / 10 ^ 32)) (coeffs (2 + M)) (spotS0 fl bs s0.arr1 s0.arr2 s0.arr1E s0.arr2E)
        (spotS1 fl bs s0.arr1 s0.arr2 s0.arr1E s0.arr2E) (spotSMid fl bs s0.arr1 s0.arr2 s0.arr1E s0.arr2E)
        (spotSLast fl bs s0.arr1 s0.arr2 s0.arr1E s0.arr2E (s0.maxRow - 1)) (spotSFin fl s0.arr2 s0.arr2E (s0.maxRow - 1)) s0 = s := hs.symm
      rw [hs', i1, if_pos le_rfl, if_pos le_rfl] at sp
      have hpow : (1 / 2 ^ (M + 1) : ℝ) / 2 = 1 / 2 ^ (M + 2) := by rw [pow_succ (2 : ℝ) (M + 1), div_div]
      have hff : IsFloat 53 (1 / 2 ^ (M + 2) : ℝ) := by
        have := isFloat_zp (K := ℝ) (p := 53) (by norm_num) (-((M + 2 : ℕ) : ℤ))
        rwa [zpow_neg, zpow_natCast, ← one_div] at this
      have hfin : spotSFin fl s0.arr2 s0.arr2E (M + 1) = (1 / 2 ^ (M + 2), 0) := by
        unfold spotSFin
        rw [i2, i3, hpow, fl_eq hfl hff, zero_div, fl_zero hfl]
      have hsf : spotOf (spotS0 fl bs s0.arr1 s0.arr2 s0.arr1E s0.arr2E) (spotS1 fl bs s0.arr1 s0.arr2 s0.arr1E s0.arr2E)
          (spotSMid fl bs s0.arr1 s0.arr2 s0.arr1E s0.arr2E) (spotSLast fl bs s0.arr1 s0.arr2 s0.arr1E s0.arr2E (M + 2 - 1))
          (spotSFin fl s0.arr2 s0.arr2E (M + 2 - 1)) (M + 2) (M + 2) = (1 / 2 ^ (M + 2), 0) := by
        unfold spotOf
        rw [if_pos rfl]
        exact hfin
      rw [hsf] at sp
      refine ⟨?_, sp.1, sp.2.1⟩
      rw [← hs']
      unfold eStepWith
      simp only []
      rw [i1, show M + 2 - 1 = M + 1 from rfl, hfin, add_zero, fl_eq hfl hff, if_pos]
      rw [abs_of_pos (by positivity)]
      refine lt_of_le_of_lt hthr ?_
      exact one_div_lt_one_div_of_lt (by positivity) (pow_lt_pow_right₀ (by norm_num) (by omega))
  exact (key M hM _ rfl).1

end Variants

end YRoots
