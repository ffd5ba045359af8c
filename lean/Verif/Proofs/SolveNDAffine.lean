import Verif.Props.SubdivideTop

/-!
# Runs of the legacy solver for affine functions
-/

set_option linter.unusedSectionVars false
set_option linter.unusedVariables false

namespace YRoots.Legacy

open Finset

variable {n : ℕ} {K : Type*} [Field K] [LinearOrder K] [IsStrictOrderedRing K]

/-- Spec: on every box, with degree at least two, `full_cheb_approximate` returns the affine function `f` itself, with error zero. -/
def ExactAffine (lib : NDLib (n + 1) K) (f : (Fin (n + 1) → K) → K) : Prop :=
  ∀ (B : Box (n + 1) K) (deg : ℕ) (tol : K) (g : Option ℕ), B.Ordered → 2 ≤ deg → 0 ≤ tol → (∀ d, g = some d → 2 ≤ d) →
    ∃ M norm, lib.approx f B deg tol g = (some M, norm, 0) ∧ 0 ≤ norm ∧ (∀ i, 3 ≤ M.shape i) ∧
      (∀ k ∈ M.idx, 2 ≤ ∑ i, k i → M.coef k = 0) ∧ ∀ t, M.eval t = f (toBox B.lo B.hi t)

/-! ### Trimming -/

theorem sliceSum_zero {M : Tensor n K} {mons : List (List ℕ)} (hne : mons ≠ []) (h : ∀ m ∈ mons, M.coef (fun i => m.getD i 0) = 0) :
    sliceSum M mons = 0 := by
  unfold sliceSum
  rw [if_neg hne]
  refine List.sum_eq_zero fun x hx => ?_
  obtain ⟨m, hm, rfl⟩ := List.mem_map.1 hx
  rw [h m hm, abs_zero]

theorem wrap_coef (hn : 1 ≤ n) {M : Tensor n K} (hM : M.Nonempty) (hl : ∀ k ∈ M.idx, 2 ≤ ∑ i, k i → M.coef k = 0) {d : ℕ} (hd : 2 ≤ d) :
    ∀ m ∈ monCombosLimitedWrap d n (shapeList M), M.coef (fun i => m.getD i 0) = 0 := by
  intro m hm
  have hlen := ((mem_wrap hn (shapeList_pos hM) d m).1 hm).1
  have e := fn_of_list m hlen
  rw [← e, ofFn_mem_wrap hn hM] at hm
  exact hl _ hm.1 (hm.2 ▸ hd)

theorem zeroAt_same {M : Tensor n K} {mons : List (List ℕ)} (hne : mons ≠ []) (h : ∀ m ∈ mons, M.coef (fun i => m.getD i 0) = 0) :
    zeroAt M mons = M := by
  unfold zeroAt
  have : (fun k => if mons = [] ∨ List.ofFn k ∈ mons then 0 else M.coef k) = M.coef := by
    funext k
    by_cases hk : List.ofFn k ∈ mons
    · rw [if_pos (.inr hk)]
      have := h _ hk
      simp only [getD_ofFn] at this
      exact this.symm
    · rw [if_neg (by tauto)]
  rw [this]

theorem wrap_ne (hn : 1 ≤ n) {M : Tensor n K} (hM : M.Nonempty) {d : ℕ} (hd : d < M.shape ⟨0, hn⟩) :
    monCombosLimitedWrap d n (shapeList M) ≠ [] := by
  have : List.ofFn (Pi.single (⟨0, hn⟩ : Fin n) d : Fin n → ℕ) ∈ monCombosLimitedWrap d n (shapeList M) := by
    rw [ofFn_mem_wrap hn hM]
    refine ⟨?_, by simp⟩
    unfold Tensor.idx
    rw [Fintype.mem_piFinset]
    intro i
    rw [mem_range]
    by_cases hi : i = ⟨0, hn⟩
    · subst hi; simpa using hd
    · rw [Pi.single_eq_of_ne hi]; exact hM i
  intro h
  rw [h] at this
  simp at this

theorem trimLoop_affine (hn : 1 ≤ n) {T : K} (hT : 0 ≤ T) {M : Tensor n K} (hM : M.Nonempty)
    (hl : ∀ k ∈ M.idx, 2 ≤ ∑ i, k i → M.coef k = 0) : ∀ d : ℕ, d + 2 < M.shape ⟨0, hn⟩ → trimLoop T (d + 2) M 0 = (truncate M 1, 0) := by
  intro d
  induction d with
  | zero =>
    intro hd
    have h1 := wrap_coef hn hM hl (d := 2) le_rfl
    have h2 := wrap_ne hn hM hd
    simp only [zero_add] at hd h2
    unfold trimLoop
    simp only [zero_add]
    rw [sliceSum_zero h2 h1, zeroAt_same h2 h1, add_zero, if_neg (not_lt.2 hT), if_pos trivial]
  | succ d ih =>
    intro hd
    have h1 := wrap_coef hn hM hl (d := d + 1 + 2) (by omega)
    have h2 := wrap_ne hn hM hd
    unfold trimLoop
    simp only []
    rw [sliceSum_zero h2 h1, zeroAt_same h2 h1, add_zero, if_neg (not_lt.2 hT), if_neg (by omega)]
    exact ih (by omega)

/-- An exact affine array in at least two variables is trimmed to its linear part. -/
theorem trimOne_affine (hn : 2 ≤ n) {T : K} (hT : 0 ≤ T) {M : Tensor n K} (h3 : ∀ i, 3 ≤ M.shape i)
    (hl : ∀ k ∈ M.idx, 2 ≤ ∑ i, k i → M.coef k = 0) : trimOne T M 0 = (truncate M 1, 0, true) := by
  have hn1 : 1 ≤ n := by omega
  have hM : M.Nonempty := fun i => by have := h3 i; omega
  have e0 : (shapeList M).getD 0 0 = M.shape ⟨0, hn1⟩ := getD_ofFn M.shape ⟨0, hn1⟩
  have hcoef : ∀ m ∈ initialMons M, M.coef (fun i => m.getD i 0) = 0 := by
    intro m hm
    unfold initialMons at hm
    obtain ⟨d, hd, hm⟩ := List.mem_flatMap.1 hm
    rw [List.mem_range'_1, e0] at hd
    have := h3 ⟨0, hn1⟩
    exact wrap_coef hn1 hM hl (by omega) m hm
  have hne : initialMons M ≠ [] := by
    have : List.ofFn (fun i : Fin n => if i = ⟨0, hn1⟩ then M.shape ⟨0, hn1⟩ - 1 else if i = ⟨1, hn⟩ then 1 else 0) ∈ initialMons M := by
      rw [mem_initialMons hn1 hM]
      have hsum : ∑ i : Fin n, (if i = ⟨0, hn1⟩ then M.shape ⟨0, hn1⟩ - 1 else if i = ⟨1, hn⟩ then 1 else 0) = M.shape ⟨0, hn1⟩ := by
        have h01 : (⟨1, hn⟩ : Fin n) ≠ ⟨0, hn1⟩ := by simp
        have : ∀ i : Fin n, (if i = ⟨0, hn1⟩ then M.shape ⟨0, hn1⟩ - 1 else if i = ⟨1, hn⟩ then 1 else 0) =
            (if i = ⟨0, hn1⟩ then M.shape ⟨0, hn1⟩ - 1 else 0) + if i = ⟨1, hn⟩ then 1 else 0 := by
          intro i
          by_cases h0 : i = ⟨0, hn1⟩
          · rw [if_pos h0, if_pos h0, if_neg (by rw [h0]; exact h01.symm), add_zero]
          · rw [if_neg h0, if_neg h0, zero_add]
        rw [Finset.sum_congr rfl fun i _ => this i, sum_add_distrib, sum_ite_eq' univ, sum_ite_eq' univ, if_pos (mem_univ _), if_pos (mem_univ _)]
        have := h3 ⟨0, hn1⟩
        omega
      refine ⟨?_, hsum.ge, ?_⟩
      · unfold Tensor.idx
        rw [Fintype.mem_piFinset]
        intro i
        rw [mem_range]
        have := h3 i
        split_ifs with h0 h1
        · subst h0; omega
        · omega
        · omega
      · rw [hsum]
        have h4 : M.shape ⟨0, hn1⟩ + 2 * (n - 1) + (n - 1) ≤ ∑ i, M.shape i := by
          rw [← Finset.add_sum_erase univ M.shape (mem_univ ⟨0, hn1⟩)]
          have : (univ.erase (⟨0, hn1⟩ : Fin n)).card • 3 ≤ ∑ x ∈ univ.erase (⟨0, hn1⟩ : Fin n), M.shape x :=
            Finset.card_nsmul_le_sum _ _ 3 fun i _ => h3 i
          rw [card_erase_of_mem (mem_univ _), card_univ, Fintype.card_fin, smul_eq_mul] at this
          omega
        omega
    intro h
    rw [h] at this
    simp at this
  unfold trimOne
  simp only []
  rw [sliceSum_zero hne hcoef, zeroAt_same hne hcoef, add_zero, if_neg (not_lt.2 hT), e0]
  have h0 := h3 ⟨0, hn1⟩
  obtain ⟨d, hd⟩ : ∃ d, M.shape ⟨0, hn1⟩ - 1 = d + 2 := ⟨M.shape ⟨0, hn1⟩ - 3, by omega⟩
  rw [hd, trimLoop_affine hn1 hT hM hl d (by omega)]

/-! ### One box -/

/-- The approximations of a list of affine functions. -/
def AffineOn (B : Box (n + 1) K) (f : (Fin (n + 1) → K) → K) (p : Tensor (n + 1) K × K × K) : Prop :=
  p.2.2 = 0 ∧ 0 ≤ p.2.1 ∧ (∀ i, 3 ≤ p.1.shape i) ∧ (∀ k ∈ p.1.idx, 2 ≤ ∑ i, k i → p.1.coef k = 0) ∧ ∀ t, p.1.eval t = f (toBox B.lo B.hi t)

theorem approxLoop_affine {lib : NDLib (n + 1) K} {B : Box (n + 1) K} (hB : B.Ordered) {deg : ℕ} (hd : 2 ≤ deg) {tol : K} (htol : 0 ≤ tol) :
    ∀ (fs : List ((Fin (n + 1) → K) → K)) (gd : List (Option ℕ)), fs.length = gd.length → (∀ f ∈ fs, ExactAffine lib f) →
      (∀ g ∈ gd, ∀ d, g = some d → 2 ≤ d) → ∀ acc, ∃ l, approxLoop lib B deg tol (fs.zip gd) acc = .inr (acc ++ l) ∧
        List.Forall₂ (AffineOn B) fs l := by
  intro fs
  induction fs with
  | nil => intro gd _ _ _ acc; exact ⟨[], by simp [approxLoop], .nil⟩
  | cons f fs ih =>
    intro gd hlen hf hg acc
    obtain _ | ⟨g, gd⟩ := gd
    · simp at hlen
    · obtain ⟨M, norm, ha, h1, h2, h3, h4⟩ := hf f (by simp) B deg tol g hB hd htol (hg g (by simp))
      obtain ⟨l, hl, hF⟩ := ih gd (by simpa using hlen) (fun f h => hf f (by simp [h])) (fun g h => hg g (by simp [h])) (acc ++ [(M, norm, 0)])
      refine ⟨(M, norm, 0) :: l, ?_, .cons ⟨rfl, h1, h2, h3, h4⟩ hF⟩
      rw [List.zip_cons_cons, approxLoop, ha]
      simp only []
      rw [hl, List.append_assoc, List.singleton_append]

/-- Linear arrays that are the functions on the box. -/
def LinearOn (B : Box (n + 1) K) (f : (Fin (n + 1) → K) → K) (c : Tensor (n + 1) K) : Prop :=
  (∀ i, c.shape i = 2) ∧ (∀ k ∈ c.idx, 1 < ∑ i, k i → c.coef k = 0) ∧ ∀ t, c.eval t = f (toBox B.lo B.hi t)

theorem trimCoeffs_affine (hn : 1 ≤ n) {B : Box (n + 1) K} {absTol relTol : K} (h0 : 0 ≤ absTol) (h1 : 0 ≤ relTol)
    {fs : List ((Fin (n + 1) → K) → K)} {l : List (Tensor (n + 1) K × K × K)} (hl : List.Forall₂ (AffineOn B) fs l) :
    (trimCoeffs absTol relTol l).2 = true ∧ (trimCoeffs absTol relTol l).1 = l.map (fun p => (truncate p.1 1, 0)) ∧
      List.Forall₂ (LinearOn B) fs (l.map fun p => truncate p.1 1) := by
  have key : ∀ f p, AffineOn B f p → trimOne (absTol + relTol * p.2.1) p.1 p.2.2 = (truncate p.1 1, 0, true) ∧ LinearOn B f (truncate p.1 1) := by
    rintro f p ⟨e, hnorm, h3, hc, he⟩
    refine ⟨?_, ?_, ?_, ?_⟩
    · rw [e]
      exact trimOne_affine (by omega) (by positivity) h3 hc
    · intro i
      simp only [truncate]
      have := h3 i
      omega
    · intro k hk hlt
      exact hc k (truncate_idx hk) hlt
    · intro t
      rw [truncate_eval p.1 1 (fun k hk hlt => hc k hk hlt)]
      exact he t
  unfold trimCoeffs
  simp only []
  induction hl with
  | nil => simp
  | @cons f p fs l hp hl ih =>
    obtain ⟨i1, i2, i3⟩ := ih
    obtain ⟨k1, k2⟩ := key f p hp
    refine ⟨?_, ?_, .cons k2 i3⟩
    · rw [List.map_cons, List.all_cons, i1, k1]; rfl
    · rw [List.map_cons, List.map_cons, i2, k1, List.map_cons]

theorem evalTols_pos {lib : NDLib (n + 1) K} {T : NDTols K} {st : NDState (n + 1) K} (hT : 0 ≤ T.absTol) (hT2 : macheps ≤ T.targetTol)
    (hst : 0 ≤ st.absTol) (hst2 : macheps ≤ st.targetTol) (level deg : ℕ) (fs : List ((Fin (n + 1) → K) → K)) (B : Box (n + 1) K) (u : Bool) :
    0 ≤ (evalTols lib T level deg fs B u st).absTol ∧ macheps ≤ (evalTols lib T level deg fs B u st).targetTol := by
  have key : ∀ (l : List ((Fin (n + 1) → K) → K)) (t : K), t ≤ l.foldl (fun t f => max t (((deg * 2) ^ (n + 1) - deg ^ (n + 1) : K) * lib.noise f B)) t := by
    intro l
    induction l with
    | nil => intro t; exact le_rfl
    | cons f l ih => intro t; exact (le_max_left _ _).trans (ih _)
  unfold evalTols
  simp only []
  split_ifs with h1 h2 h3 h3
  · exact ⟨hst, hT2.trans (key _ _)⟩
  · exact ⟨hst, hT2⟩
  · exact ⟨hT.trans (key _ _), hst2⟩
  · exact ⟨hT, hst2⟩
  · exact ⟨hst, hst2⟩

theorem floorErr_zero (trust : Bool) : (0 : K) ≤ floorErr trust 0 ∧ floorErr trust (0 : K) ≤ macheps := by
  unfold floorErr
  have : (0 : K) ≤ macheps := by unfold macheps; positivity
  cases trust
  · simp [this]
  · simp [this]

/-- The body of the solver for affine functions: the linear system is solved if the degree is 2; otherwise the call of line 805 follows. -/
theorem ndBody_affine (hn : 1 ≤ n) {lib : NDLib (n + 1) K} {T : NDTols K} {targetDeg : ℕ} (htd : 1 ≤ targetDeg) (trust : Bool) (level : ℕ)
    (recur retry : NDCall (n + 1) K) {fs : List ((Fin (n + 1) → K) → K)} (hf : ∀ f ∈ fs, ExactAffine lib f) {og : Box (n + 1) K} (ho : og.Ordered)
    {deg : ℕ} (hd : 2 ≤ deg) {gd : List (Option ℕ)} (hgd : fs.length = gd.length) (hg : ∀ g ∈ gd, ∀ d, g = some d → 2 ≤ d) (u : Bool)
    {st : NDState (n + 1) K} (hr : 0 ≤ T.relTol) (hT : 0 ≤ T.absTol) (hT2 : macheps ≤ T.targetTol) (hst : 0 ≤ st.absTol)
    (hst2 : macheps ≤ st.targetTol) (hmg : 0 ≤ T.minGood) :
    ∃ cs tol, List.Forall₂ (LinearOn (buffered og)) fs cs ∧ 0 ≤ tol ∧
      ndBody lib T targetDeg trust level recur retry fs og deg gd u st =
        if deg ≠ 2 then retry fs (buffered og) 2 (List.replicate fs.length (some 2)) true (evalTols lib T level deg fs og u st)
        else match solveLinearList lib.solve cs with
          | .error e => .error (.linear e)
          | .ok zero => .ok (record (evalTols lib T level deg fs og u st) "Base Case" (zero.toList.map fun z i => (z i, 0)) tol og (buffered og)) := by
  obtain ⟨p1, p2⟩ := evalTols_pos (lib := lib) hT hT2 hst hst2 level deg fs og u
  obtain ⟨l, hl, hF⟩ := approxLoop_affine (lib := lib) (buffered_ordered ho) hd
    (tol := if u then (evalTols lib T level deg fs og u st).targetTol else (evalTols lib T level deg fs og u st).absTol)
    (by have : (0 : K) ≤ macheps := by unfold macheps; positivity
        split_ifs
        · exact this.trans p2
        · exact p1) fs gd hgd hf hg []
  obtain ⟨t1, t2, t3⟩ := trimCoeffs_affine hn p1 hr hF
  rw [List.nil_append] at hl
  have hshape : ∀ c ∈ l.map (fun p => truncate p.1 1), c.shape 0 = 2 := by
    intro c hc
    obtain ⟨i, hi, rfl⟩ := List.getElem_of_mem hc
    exact ((List.forall₂_iff_get.1 t3).2 i (by rw [t3.length_eq]; exact hi) hi).1 0
  refine ⟨l.map fun p => truncate p.1 1,
    max T.minGood (((((trimCoeffs (evalTols lib T level deg fs og u st).absTol T.relTol l).1.map fun p => floorErr trust p.2)).map fun e => |e|).sum * T.factor),
    t3, hmg.trans (le_max_left _ _), ?_⟩
  unfold ndBody
  simp only [hl]
  unfold ndGood
  simp only [t1]
  have hc : (trimCoeffs (evalTols lib T level deg fs og u st).absTol T.relTol l).1.map Prod.fst = l.map fun p => truncate p.1 1 := by
    rw [t2, List.map_map]; rfl
  rw [hc]
  have c1 : ((l.map fun p => truncate p.1 1).any fun c => decide (c.shape 0 > targetDeg + 1)) = false := by
    rw [List.any_eq_false]
    intro c hc
    rw [hshape c hc]
    simp only [gt_iff_lt, decide_eq_true_eq, not_lt]
    omega
  have c2 : ((((trimCoeffs (evalTols lib T level deg fs og u st).absTol T.relTol l).1.map fun p => floorErr trust p.2)).zip l).any
      (fun p => decide (p.1 > (evalTols lib T level deg fs og u st).targetTol + T.relTol * p.2.2.1)) = false := by
    rw [List.any_eq_false]
    rintro ⟨e, p⟩ hp
    rw [t2, List.map_map] at hp
    obtain ⟨he, hpl⟩ := List.of_mem_zip hp
    obtain ⟨q, -, rfl⟩ := List.mem_map.1 he
    have hpn : 0 ≤ p.2.1 := by
      obtain ⟨i, hi, rfl⟩ := List.getElem_of_mem hpl
      exact ((List.forall₂_iff_get.1 hF).2 i (by rw [hF.length_eq]; exact hi) hi).2.1
    have h1 := (floorErr_zero (K := K) trust).2
    have h2 := mul_nonneg hr hpn
    simp only [Function.comp_apply, gt_iff_lt, decide_eq_true_eq, not_lt]
    linarith
  have c3 : ((l.map fun p => truncate p.1 1).all fun c => decide (c.shape 0 = 2)) = true := by
    rw [List.all_eq_true]
    intro c hc
    simpa using hshape c hc
  rw [c1, if_neg (by simp), c2, if_neg (by simp), if_pos c3]
  by_cases h2 : deg = 2
  · rw [if_neg (by simpa using h2), if_neg (by simpa using h2)]
    rfl
  · rw [if_pos h2, if_pos h2]
    congr 1
    rw [if_pos trivial]
    rw [List.eq_replicate_iff]
    refine ⟨by simp [hF.length_eq], fun b hb => ?_⟩
    obtain ⟨c, hc, rfl⟩ := List.mem_map.1 hb
    rw [hshape c hc, min_eq_left hd]

/-! ### A call -/

/-- Spec: the conditions on the tolerances of a round. -/
structure NDTols.Usual (T : NDTols K) : Prop where
  rel : 0 ≤ T.relTol
  abs : 0 ≤ T.absTol
  target : macheps ≤ T.targetTol
  minGood : 0 ≤ T.minGood

theorem solveND_affine (hn : 1 ≤ n) {lib : NDLib (n + 1) K} {T : NDTols K} (hT : T.Usual) {targetDeg : ℕ} (htd : 1 ≤ targetDeg) (trust : Bool)
    (left level : ℕ) {fs : List ((Fin (n + 1) → K) → K)} (hf : ∀ f ∈ fs, ExactAffine lib f) {og : Box (n + 1) K} (ho : og.Ordered)
    {deg : ℕ} (hd : 2 ≤ deg) {gd : List (Option ℕ)} (hgd : fs.length = gd.length) (hg : ∀ g ∈ gd, ∀ d, g = some d → 2 ≤ d) (u : Bool)
    {st : NDState (n + 1) K} (hst : 0 ≤ st.absTol) (hst2 : macheps ≤ st.targetTol) :
    ∃ og2 cs tol s2, (og2 = og ∨ og2 = buffered og) ∧ List.Forall₂ (LinearOn (buffered og2)) fs cs ∧ 0 ≤ tol ∧ s2.tracker = st.tracker ∧
      solveND lib T targetDeg trust (left + 1) level fs og deg gd u st =
        match solveLinearList lib.solve cs with
          | .error e => .error (.linear e)
          | .ok zero => .ok (record s2 "Base Case" (zero.toList.map fun z i => (z i, 0)) tol og2 (buffered og2)) := by
  have h1 := ndBody_affine hn (lib := lib) htd trust level (solveND lib T targetDeg trust left (level + 1))
    (ndBody lib T targetDeg trust level (solveND lib T targetDeg trust left (level + 1)) fun _ _ _ _ _ st => .ok st) hf ho hd hgd hg u
    hT.rel hT.abs hT.target hst hst2 hT.minGood
  obtain ⟨cs, tol, hcs, htol, h1⟩ := h1
  by_cases h2 : deg = 2
  · rw [if_neg (by simpa using h2)] at h1
    exact ⟨og, cs, tol, _, .inl rfl, hcs, htol, (evalTols_data lib T level deg fs og u st).2, h1⟩
  · rw [if_pos h2] at h1
    obtain ⟨p1, p2⟩ := evalTols_pos (lib := lib) hT.abs hT.target hst hst2 level deg fs og u
    obtain ⟨cs', tol', hcs', htol', h3⟩ := ndBody_affine hn (lib := lib) htd trust level (solveND lib T targetDeg trust left (level + 1))
      (fun _ _ _ _ _ st => .ok st) hf (buffered_ordered ho) le_rfl (gd := List.replicate fs.length (some 2)) (by simp)
      (fun g hg d hd => by rw [(List.mem_replicate.1 hg).2] at hd; simp only [Option.some.injEq] at hd; omega) true
      hT.rel hT.abs hT.target p1 p2 hT.minGood
    rw [if_neg (by simp)] at h3
    refine ⟨buffered og, cs', tol', _, .inr rfl, hcs', htol', ?_, h1.trans h3⟩
    rw [(evalTols_data lib T level 2 fs (buffered og) true _).2, (evalTols_data lib T level deg fs og u st).2]

/-- The zeros of the linear arrays. -/
theorem linear_solution {S : LinSolve (n + 1) K} (hS : S.Exact) {B : Box (n + 1) K} (hB : ∀ i, B.lo i < B.hi i)
    {fs : List ((Fin (n + 1) → K) → K)} (hlen : fs.length = n + 1) {cs : List (Tensor (n + 1) K)} (hcs : List.Forall₂ (LinearOn B) fs cs) :
    (∀ x, (∀ y, (∀ f ∈ fs, f y = 0) ↔ y = x) → ∃ z, toBox B.lo B.hi z = x ∧ solveLinearList S cs = .ok (some z)) ∧
    ((∀ y, ∃ f ∈ fs, f y ≠ 0) → solveLinearList S cs = .ok none ∨ solveLinearList S cs = .error .tooManyRoots) := by
  have hlen' : cs.length = n + 1 := hcs.length_eq ▸ hlen
  have hget : ∀ i : Fin (n + 1), LinearOn B (fs.get (i.cast hlen.symm)) (cs.get (i.cast hlen'.symm)) := fun i =>
    (List.forall₂_iff_get.1 hcs).2 i (by rw [hlen]; exact i.2) (by rw [hlen']; exact i.2)
  obtain ⟨h1, h2, h3, h4⟩ := C61_solve_linear_partial hS (fun i => cs.get (i.cast hlen'.symm)) (fun i j => by rw [(hget i).1 j]; omega)
    fun i => (hget i).2.1
  have hsol : solveLinearList S cs = solveLinear S fun i => cs.get (i.cast hlen'.symm) := by
    unfold solveLinearList
    rw [dif_pos hlen']
  have hroot : ∀ z, z ∈ commonRoots (fun i => cs.get (i.cast hlen'.symm)) ↔ ∀ f ∈ fs, f (toBox B.lo B.hi z) = 0 := by
    intro z
    constructor
    · intro hz f hf
      obtain ⟨i, rfl⟩ := List.get_of_mem hf
      have := hz (i.cast hlen)
      rw [(hget (i.cast hlen)).2.2 z] at this
      exact this
    · intro hz i
      change (cs.get (i.cast hlen'.symm)).eval z = 0
      rw [(hget i).2.2 z]
      exact hz _ (List.get_mem _ _)
  constructor
  · intro x hx
    have hinv : ∀ z, toBox B.lo B.hi z = x ↔ z = fun i => (2 * x i - (B.hi i + B.lo i)) / (B.hi i - B.lo i) := by
      intro z
      rw [funext_iff, funext_iff]
      refine forall_congr' fun i => ?_
      have := sub_pos.2 (hB i)
      rw [eq_div_iff this.ne']
      simp only [toBox]
      constructor
      · intro h; linarith
      · intro h; linarith
    refine ⟨_, (hinv _).2 rfl, ?_⟩
    rw [hsol, h1]
    ext z
    rw [hroot, hx, hinv, Set.mem_singleton_iff]
  · intro hno
    rw [hsol]
    rcases hs : solveLinear S (fun i => cs.get (i.cast hlen'.symm)) with e | z
    · cases e with
      | tooManyRoots => exact .inr rfl
      | indexError => exact absurd hs h4
    · cases z with
      | none => exact .inl rfl
      | some z =>
        have := (h1 z).1 hs
        obtain ⟨f, hf, hne⟩ := hno (toBox B.lo B.hi z)
        exact absurd ((hroot z).1 (by rw [this]; rfl) f hf) hne

/-- What is stored for a zero inside of the box. -/
theorem record_inside {s : NDState n K} {name : String} {z : Fin n → K} {tol : K} (htol : 0 ≤ tol) {og B : Box n K} {x : Fin n → K}
    (hx : toBox B.lo B.hi z = x) (hog : ∀ i, og.lo i < x i ∧ x i < og.hi i) (hB : ∀ i, B.lo i < x i ∧ x i < B.hi i) :
    (record s name [fun i => (z i, 0)] tol og B).tracker = { s.tracker.addRoot x B.lo B.hi name with
      possibleDuplicates := s.tracker.possibleDuplicates.filter fun d => !rootInBox d.zero B.lo B.hi } := by
  have hz : InCube z := (inCube_of_mem (B := B) (z := z) (by rw [hx]; exact hB)).2
  have hg : goodZerosND [fun i => (z i, (0 : K))] tol tol = [z] := by
    unfold goodZerosND
    rw [List.filter_eq_self.2]
    · rfl
    · intro w hw
      rw [List.mem_singleton.1 hw, Bool.and_eq_true, decide_eq_true_eq, decide_eq_true_eq]
      refine ⟨fun i => by simpa using htol, fun i => ?_⟩
      have := hz i
      simp only
      linarith
  have hzi : zerosInInterval [x] og = [x] := by
    unfold zerosInInterval
    have key : ∀ l : List (Fin n), l.foldl (fun zs i => (zs.filter fun z => decide (z i - og.lo i ≥ -(1 / 10 ^ 9))).filter
        fun z => decide (z i - og.hi i ≤ 1 / 10 ^ 9)) [x] = [x] := by
      intro l
      induction l with
      | nil => rfl
      | cons i l ih =>
        have h := hog i
        have hp : (0 : K) < 1 / 10 ^ 9 := by positivity
        have hfil : ∀ p : (Fin n → K) → Bool, p x = true → [x].filter p = [x] := fun p hp => by rw [List.filter_cons_of_pos hp, List.filter_nil]
        rw [List.foldl_cons, hfil _ (by rw [decide_eq_true_eq]; linarith), hfil _ (by rw [decide_eq_true_eq]; linarith), ih]
    exact key _
  have hin : rootInBox x B.lo B.hi = true := by
    rw [rootInBox, Bool.and_eq_true, decide_eq_true_eq, decide_eq_true_eq]
    exact ⟨fun i => (hB i).1, fun i => (hB i).2⟩
  unfold record
  simp only []
  rw [hg, List.map_singleton, transformPoint_eq, hx, hzi]
  unfold Tracker.addRoots
  simp only [List.foldl_cons, List.foldl_nil, Tracker.addOne, hin, if_true]
  rfl

/-- What is stored if there is no zero near the box. -/
theorem record_outside {s : NDState n K} (hs : s.tracker.possibleDuplicates = []) {name : String} {zeros : List (Fin n → K × K)} {tol : K}
    {og B : Box n K} (h : ∀ w ∈ zeros, ∃ i, toBox B.lo B.hi (fun i => (w i).1) i < og.lo i - 1 / 10 ^ 9 ∨
      og.hi i + 1 / 10 ^ 9 < toBox B.lo B.hi (fun i => (w i).1) i) :
    (record s name zeros tol og B).tracker = s.tracker := by
  have hz : zerosInInterval ((goodZerosND zeros tol tol).map (transformPoint B)) og = [] := by
    rw [List.eq_nil_iff_forall_not_mem]
    intro x hx
    obtain ⟨hx, hi⟩ := mem_zerosInInterval.1 hx
    obtain ⟨y, hy, rfl⟩ := List.mem_map.1 hx
    simp only [goodZerosND, List.mem_map, List.mem_filter] at hy
    obtain ⟨w, ⟨hw, -⟩, rfl⟩ := hy
    obtain ⟨i, h⟩ := h w hw
    rw [transformPoint_eq] at hi
    have := hi i
    rcases h with h | h <;> linarith
  unfold record
  simp only []
  rw [hz]
  unfold Tracker.addRoots
  simp only [List.foldl_nil]
  rw [hs, List.filter_nil, ← hs]

end YRoots.Legacy
