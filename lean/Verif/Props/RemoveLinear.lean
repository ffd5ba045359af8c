import Verif.Proofs.RemoveLinear

/-!
# C97: `remove_linear` replaces a system by one with fewer variables and the same zeros

False of the code: with a linear polynomial in the system it always raises.  Proved for three variables, if polynomials had the attribute
`degree` and `trim_coeffs` could be called with two arguments.
-/

namespace YRoots.Legacy

open Finset

variable {n : ℕ}

theorem looksLinear_iff {p : Tensor n ℝ} : looksLinear p = true ↔ ∀ j, p.shape j ≤ 2 := by
  unfold looksLinear
  rw [decide_eq_true_eq]
  exact forall_congr' fun j => by omega

/-- **C97 is false.** Whatever the attribute `degree` is, a system of two or more polynomials in which some polynomial has degree at most one
in each variable leads to an exception. -/
theorem C97_raises_false (env : RemoveEnv) (hL : ∀ {n : ℕ}, env.trim (n := n) = pinnedTrim) (tol : ℝ) {N : ℕ} (polys : List (Tensor n ℝ))
    (T : (Fin n → ℝ) → Fin N → ℝ) (h2 : 2 ≤ polys.length) (hlin : ∃ p ∈ polys, ∀ j, p.shape j ≤ 2) :
    ∃ e, removeLinear env tol n polys T = .error e := by
  match n, polys, T, h2, hlin with
  | 0, _ :: _ :: _, T, _, _ => exact ⟨_, by rw [removeLinear]⟩
  | n + 1, p :: q :: l, T, _, hlin =>
    obtain ⟨p0, hp0, hs0⟩ := hlin
    have hsome : ((p :: q :: l).find? looksLinear).isSome := List.find?_isSome.2 ⟨p0, hp0, looksLinear_iff.2 hs0⟩
    obtain ⟨lin, hl⟩ := Option.isSome_iff_exists.1 hsome
    have hidx : (p :: q :: l).findIdx looksLinear < (p :: q :: l).length :=
      List.findIdx_lt_length_of_exists ⟨p0, hp0, looksLinear_iff.2 hs0⟩
    rw [removeLinear]
    simp only [hl]
    split_ifs with hn
    · exact ⟨_, rfl⟩
    obtain ⟨m, rfl⟩ : ∃ m, n = m + 1 := ⟨n - 1, by omega⟩
    cases hp : projectDown env ((p :: q :: l).eraseIdx ((p :: q :: l).findIdx looksLinear)) lin tol with
    | error e => exact ⟨e, rfl⟩
    | ok new =>
      have hlen : ((p :: q :: l).eraseIdx ((p :: q :: l).findIdx looksLinear)).length = l.length + 1 := by
        rw [List.length_eraseIdx, if_pos hidx]
        simp
      generalize (p :: q :: l).eraseIdx ((p :: q :: l).findIdx looksLinear) = rest at hp hlen
      unfold projectDown at hp
      by_cases hix : ∃ j, lin.shape j < 2
      · rw [if_pos hix] at hp
        exact absurd hp (by intro h; cases h)
      rw [if_neg hix] at hp
      cases hm : rest.mapM fun p => projApproximate env p (projT (env.lib (m + 1)) lin) with
      | error e =>
        rw [hm] at hp
        exact absurd hp (by intro h; cases h)
      | ok cs =>
        rw [hm] at hp
        by_cases hr : 1 < rest.length
        · have : (Except.error RemoveErr.missingArgs : Except RemoveErr (List (Tensor (m + 1) ℝ))) = .ok new := by
            rw [← hp]
            change _ = (if 1 < rest.length then env.trim cs tol else _)
            rw [if_pos hr, hL]
            rfl
          cases this
        · have hnew : cs = new := by
            have : (Except.ok cs : Except RemoveErr (List (Tensor (m + 1) ℝ))) = .ok new := by
              rw [← hp]
              change _ = (if 1 < rest.length then _ else _)
              rw [if_neg hr]
              rfl
            exact Except.ok.inj this
          subst hnew
          obtain ⟨a, rfl⟩ := List.length_eq_one_iff.1 (show rest.length = 1 by omega)
          cases ha : projApproximate env a (projT (env.lib (m + 1)) lin) with
          | error e =>
            rw [mapM_error _ e a [] ha] at hm
            cases hm
          | ok b =>
            rw [List.mapM_cons, ha] at hm
            have hcs : [b] = cs := Except.ok.inj hm
            subst hcs
            change ∃ e, (removeLinear env tol (m + 1) [cleanCoeff b] _ >>= _) = _
            rw [removeLinear]
            split_ifs with h
            · exact ⟨_, rfl⟩
            · exact ⟨_, rfl⟩

/-- **C97**, systems without such polynomials are returned as they are; a single polynomial comes back without the flag. -/
theorem C97_unchanged_partial (env : RemoveEnv) (tol : ℝ) {N : ℕ} (polys : List (Tensor (n + 1) ℝ)) (T : (Fin (n + 1) → ℝ) → Fin N → ℝ)
    (h0 : polys ≠ []) (hs : ∀ p ∈ polys, ∃ j, 2 < p.shape j) (h1 : polys.length = 1 → ∀ p ∈ polys, 2 < p.shape 0) :
    removeLinear env tol (n + 1) polys T = .ok ⟨n + 1, polys, T, if polys.length = 1 then none else some false⟩ := by
  match polys, h0 with
  | [p], _ =>
    rw [removeLinear, if_neg (by have := h1 rfl p List.mem_cons_self; omega)]
    rfl
  | p :: q :: l, _ =>
    have hnone : (p :: q :: l).find? looksLinear = none := List.find?_eq_none.2 fun a ha hl => by
      obtain ⟨j, hj⟩ := hs a ha
      have := looksLinear_iff.1 hl j
      omega
    rw [removeLinear]
    simp only [hnone]
    rw [if_neg (by simp)]

/-- One round: the first polynomial that looks linear is removed. -/
theorem removeLinear_step (env : RemoveEnv) (tol : ℝ) {N : ℕ} (l₁ l₂ : List (Tensor (n + 2) ℝ)) (lin : Tensor (n + 2) ℝ)
    (T : (Fin (n + 2) → ℝ) → Fin N → ℝ) (h1 : ∀ p ∈ l₁, ∃ j, 2 < p.shape j) (hs : ∀ j, lin.shape j = 2) (h2 : l₁ ++ l₂ ≠ []) :
    removeLinear env tol (n + 2) (l₁ ++ lin :: l₂) T = (do
      let new ← projectDown env (l₁ ++ l₂) lin tol
      let r ← removeLinear env tol (n + 1) (new.map cleanCoeff) fun x => T (projT (env.lib (n + 1)) lin x)
      match r.flag with
      | none => .error .unpack
      | some _ => .ok ⟨r.m, r.polys, r.transform, some true⟩) := by
  have hl1 : ∀ p ∈ l₁, ¬ looksLinear p = true := fun p hp h => by
    obtain ⟨j, hj⟩ := h1 p hp
    have := looksLinear_iff.1 h j
    omega
  have hlin : looksLinear lin = true := looksLinear_iff.2 fun j => (hs j).le
  have hfind : (l₁ ++ lin :: l₂).find? looksLinear = some lin := by
    rw [List.find?_append, List.find?_eq_none.2 hl1, Option.none_or, List.find?_cons_of_pos hlin]
  have hidx : (l₁ ++ lin :: l₂).findIdx looksLinear = l₁.length := by
    rw [List.findIdx_append, if_neg, List.findIdx_cons, hlin]
    · simp
    · rw [List.findIdx_lt_length]
      rintro ⟨p, hp, h⟩
      exact hl1 p hp h
  have her : (l₁ ++ lin :: l₂).eraseIdx ((l₁ ++ lin :: l₂).findIdx looksLinear) = l₁ ++ l₂ := by
    rw [hidx, List.eraseIdx_append_of_length_le le_rfl, Nat.sub_self]
    rfl
  have hlen : 2 ≤ (l₁ ++ lin :: l₂).length := by
    have := List.length_pos_iff.2 h2
    simp only [List.length_append, List.length_cons] at this ⊢
    omega
  rw [← her]
  generalize l₁ ++ lin :: l₂ = polys at *
  match polys, hlen with
  | p :: q :: l, _ =>
    conv_lhs => rw [removeLinear]
    simp only [hfind]
    rw [if_neg (by omega)]
    congr 1

/-- **C97 is false of this commit**: the exception is `AttributeError`, if the first such polynomial has both coefficients along each axis. -/
theorem C97_attribute_false (env : RemoveEnv) (hd : ∀ {n : ℕ}, env.degree (n := n) = pinnedDegree) (tol : ℝ) {N : ℕ}
    (l₁ l₂ : List (Tensor (n + 2) ℝ)) (lin : Tensor (n + 2) ℝ) (T : (Fin (n + 2) → ℝ) → Fin N → ℝ) (h1 : ∀ p ∈ l₁, ∃ j, 2 < p.shape j)
    (hs : ∀ j, lin.shape j = 2) (h2 : l₁ ++ l₂ ≠ []) : removeLinear env tol (n + 2) (l₁ ++ lin :: l₂) T = .error .noDegree := by
  rw [removeLinear_step env tol l₁ l₂ lin T h1 hs h2]
  have : projectDown env (l₁ ++ l₂) lin tol = .error .noDegree := by
    unfold projectDown
    rw [if_neg (by simp [hs])]
    obtain ⟨a, l, e⟩ := List.exists_cons_of_ne_nil h2
    rw [e]
    have ha : projApproximate env a (projT (env.lib (n + 1)) lin) = .error .noDegree := by
      unfold projApproximate
      rw [hd]
      rfl
    rw [mapM_error _ _ a l ha]
    rfl
  rw [this]
  rfl

/-- The restriction of `f` along `T` is a polynomial of degree at most one in each variable. -/
def RestrictsToBilinear {m : ℕ} (f : Tensor m ℝ) (T : (Fin n → ℝ) → Fin m → ℝ) : Prop :=
  ∃ M : Tensor n ℝ, (∀ j, M.shape j ≤ 2) ∧ ∀ x, M.eval x = f.eval (T x)

/-- **C97 (in three variables, with the missing parts supplied).** If `degree` bounds the total degree and `trim_coeffs` does not change the
polynomials: a system with exactly one linear polynomial (whose coefficients are 0 or above `1e-8`) and at least two others, none of which
becomes bilinear, is replaced by one in two variables without the linear polynomial; its zeros in the square are mapped to zeros of the
original system, and all zeros in the cube are obtained. -/
theorem C97_three_partial (env : RemoveEnv) (hL : (env.lib 2).Correct) (tol : ℝ) (l₁ l₂ : List (Tensor 3 ℝ)) (lin : Tensor 3 ℝ)
    (h1 : ∀ p ∈ l₁, ∃ j, 2 < p.shape j) (hs : ∀ j, lin.shape j = 2) (hl : Linear lin) (hc : ∃ i, linCoef lin i ≠ 0)
    (hbig : ∀ i, linCoef lin i = 0 ∨ 1 / 10 ^ 8 < |linCoef lin i|) (h2 : 2 ≤ (l₁ ++ l₂).length)
    (hdeg : ∀ p ∈ l₁ ++ l₂, ∃ d, 1 ≤ d ∧ env.degree p = .ok d ∧ TotalDegreeLE p d ∧ ((env.arr 2).size < d + 1 ∨ 2 * d ≤ (env.arr 2).size))
    (htrim : ∀ cs : List (Tensor 2 ℝ), ∃ cs', env.trim cs tol = .ok cs' ∧ List.Forall₂ (fun c c' => ∀ x, c'.eval x = c.eval x) cs cs')
    (hnb : ∀ p ∈ l₁ ++ l₂, ¬ RestrictsToBilinear p (projT (env.lib 2) lin)) :
    ∃ (qs : List (Tensor 2 ℝ)) (T : (Fin 2 → ℝ) → Fin 3 → ℝ), removeLinear env tol 3 (l₁ ++ lin :: l₂) id = .ok ⟨2, qs, T, some true⟩ ∧
      qs.length + 1 = (l₁ ++ lin :: l₂).length ∧
      (∀ x, InCube x → ((∀ q ∈ qs, q.eval x = 0) ↔ ∀ p ∈ l₁ ++ lin :: l₂, p.eval (T x) = 0)) ∧
      ∀ y, InCube y → (∀ p ∈ l₁ ++ lin :: l₂, p.eval y = 0) → ∃ x, InCube x ∧ T x = y ∧ ∀ q ∈ qs, q.eval x = 0 := by
  set T := projT (env.lib 2) lin with hT
  obtain ⟨cs, hcs, hR⟩ := mapM_ok (fun p => projApproximate env p T) (fun p q => ∀ x, q.eval x = p.eval (T x)) (l₁ ++ l₂) fun p hp => by
    obtain ⟨d, hd, hdp, htd, hS⟩ := hdeg p hp
    obtain ⟨q, hq, -, he⟩ := projApproximate_exact env (by norm_num) p (projT_affine (env.lib 2) lin) hdp hd htd hS
    exact ⟨q, hq, he⟩
  obtain ⟨cs', htr, hR'⟩ := htrim cs
  have hpd : projectDown env (l₁ ++ l₂) lin tol = .ok cs' := by
    unfold projectDown
    rw [if_neg (by simp [hs]), ← hT, hcs]
    change (if 1 < (l₁ ++ l₂).length then _ else _) = _
    rw [if_pos (by omega), htr]
  have hRq : List.Forall₂ (fun p q => ∀ x, q.eval x = p.eval (T x)) (l₁ ++ l₂) (cs'.map cleanCoeff) := by
    rw [List.forall₂_map_right_iff]
    clear hcs htr hpd
    generalize l₁ ++ l₂ = ps at hR
    induction hR generalizing cs' with
    | nil => cases hR'; exact .nil
    | cons a _ ih =>
      cases hR' with
      | cons b hb => exact .cons (fun x => by rw [cleanCoeff_eval, b, a]) (ih _ hb)
  have hrun := removeLinear_step env tol l₁ l₂ lin id h1 hs (by intro h; rw [h] at h2; simp at h2)
  rw [hpd] at hrun
  change _ = (removeLinear env tol 2 (cs'.map cleanCoeff) (fun x => id (T x)) >>= _) at hrun
  generalize cs'.map cleanCoeff = qs at hRq hrun
  have hlen : qs.length = (l₁ ++ l₂).length := hRq.length_eq.symm
  have hbil : ∀ q ∈ qs, ¬ looksLinear q = true := by
    intro q hq hlq
    obtain ⟨p, hp, he⟩ : ∃ p ∈ l₁ ++ l₂, ∀ x, q.eval x = p.eval (T x) := by
      clear hrun hlen hdeg hnb hcs hR hpd h2
      generalize l₁ ++ l₂ = ps at hRq
      induction hRq with
      | nil => cases hq
      | cons a _ ih =>
        rcases List.mem_cons.1 hq with rfl | h
        · exact ⟨_, List.mem_cons_self, a⟩
        · obtain ⟨p, hp, he⟩ := ih h
          exact ⟨p, List.mem_cons_of_mem _ hp, he⟩
    exact hnb p hp ⟨q, looksLinear_iff.1 hlq, he⟩
  have hrec : removeLinear env tol 2 qs (fun x => id (T x)) = .ok ⟨2, qs, T, some false⟩ := by
    match qs, hlen, hbil with
    | [], hlen, _ => simp only [List.length_nil] at hlen; omega
    | [_], hlen, _ => simp only [List.length_singleton] at hlen; omega
    | p :: q :: l, _, hbil =>
      rw [removeLinear]
      simp only [List.find?_eq_none.2 hbil]
      rfl
  rw [hrec] at hrun
  have hiff : ∀ x, (∀ q ∈ qs, q.eval x = 0) ↔ ∀ p ∈ l₁ ++ l₂, p.eval (T x) = 0 := by
    intro x
    clear hrun hlen hdeg hnb hcs hR hpd h2 hbil hrec
    generalize l₁ ++ l₂ = ps at hRq
    induction hRq with
    | nil => simp
    | cons a _ ih => simp only [List.forall_mem_cons, ih, a]
  have hmem : ∀ y : Fin 3 → ℝ, (∀ p ∈ l₁ ++ lin :: l₂, p.eval y = 0) ↔ lin.eval y = 0 ∧ ∀ p ∈ l₁ ++ l₂, p.eval y = 0 := by
    intro y
    simp only [List.forall_mem_append, List.forall_mem_cons]
    tauto
  have hs' : ∀ j, 1 < lin.shape j := fun j => by rw [hs]; norm_num
  refine ⟨qs, T, hrun, ?_, fun x hx => ?_, fun y hy h0 => ?_⟩
  · rw [hlen]
    simp only [List.length_append, List.length_cons]
    omega
  · rw [hiff, hmem]
    exact ⟨fun h => ⟨C71_in_plane (env.lib 2) hL lin hs' hl hc (T x) ((C72_image_partial (env.lib 2) lin (T x)).1 ⟨x, hx, rfl⟩), h⟩, fun h => h.2⟩
  · obtain ⟨hz, h0'⟩ := (hmem y).1 h0
    obtain ⟨x, hx, rfl⟩ := (C72_image_partial (env.lib 2) lin y).2 (C71_covers_partial (env.lib 2) hL lin hs' hl hc hbig y hy hz)
    exact ⟨x, hx, rfl, (hiff x).2 h0'⟩

/-! ### The hypotheses can be met -/

/-- The polynomial `z`. -/
noncomputable def planeZ : Tensor 3 ℝ := ⟨fun _ => 2, fun k => if k = Pi.single 2 1 then 1 else 0⟩

/-- The polynomial `2 y_i² - 1`. -/
noncomputable def squareOf (i : Fin 3) : Tensor 3 ℝ := ⟨fun _ => 3, fun k => if k = Pi.single i 2 then 1 else 0⟩

theorem squareOf_eval (i : Fin 3) (y : Fin 3 → ℝ) : (squareOf i).eval y = 2 * y i ^ 2 - 1 := by
  have hm : (Pi.single i 2 : Fin 3 → ℕ) ∈ (squareOf i).idx := by
    refine Fintype.mem_piFinset.2 fun l => mem_range.2 ?_
    by_cases h : l = i
    · subst h; simp [squareOf]
    · simp [squareOf, Pi.single_eq_of_ne h]
  rw [Tensor.eval, sum_eq_single_of_mem _ hm fun k _ hk => by simp [squareOf, hk]]
  rw [prod_eq_single i]
  · simp only [squareOf, if_true, Pi.single_eq_same, one_mul]
    simp [chebT, Polynomial.Chebyshev.T_two]
  · intro l _ hl
    rw [Pi.single_eq_of_ne hl]
    exact chebT_zero _
  · simp

theorem planeZ_linear : Linear planeZ := fun k _ h => by
  have : k ≠ Pi.single 2 1 := by
    rintro rfl
    simp at h
  simp [planeZ, this]

theorem planeZ_data : planeZ.const = 0 ∧ linCoef planeZ 0 = 0 ∧ linCoef planeZ 1 = 0 ∧ linCoef planeZ 2 = 1 := by
  have e1 : (fun _ => 0 : Fin 3 → ℕ) ≠ Pi.single 2 1 := by decide
  have e2 : (Pi.single 0 1 : Fin 3 → ℕ) ≠ Pi.single 2 1 := fun h => by simpa using congrFun h 2
  have e3 : (Pi.single 1 1 : Fin 3 → ℕ) ≠ Pi.single 2 1 := fun h => by simpa using congrFun h 2
  exact ⟨by simp [planeZ, Tensor.const, e1], by simp [planeZ, linCoef, e2], by simp [planeZ, linCoef, e3], by simp [planeZ, linCoef]⟩

/-- Exact factorisations, degree 2, nothing trimmed, no array yet. -/
noncomputable def exRemove : RemoveEnv where
  lib := someProjLib
  degree := fun _ => .ok 2
  trim := fun cs _ => .ok cs
  garbage := fun _ _ => 0
  arr := fun _ => ⟨0, fun _ => 0⟩

/-- A polynomial of degree at most one in each of two variables has no second differences along them. -/
theorem bilinear_second {M : Tensor 2 ℝ} (hM : ∀ j, M.shape j ≤ 2) (x : Fin 2 → ℝ) (i : Fin 2) :
    M.eval (Function.update x i 1) - 2 * M.eval (Function.update x i 0) + M.eval (Function.update x i (-1)) = 0 := by
  simp only [Tensor.eval, mul_sum]
  rw [← sum_sub_distrib, ← sum_add_distrib]
  refine sum_eq_zero fun k hk => ?_
  have hki : k i ≤ 1 := by
    have h1 := mem_range.1 (Fintype.mem_piFinset.1 hk i)
    have h2 := hM i
    omega
  have hp : ∀ t, ∏ l, chebT (k l) (Function.update x i t l) = chebT (k i) t * ∏ l ∈ univ.erase i, chebT (k l) (x l) := fun t => by
    rw [← mul_prod_erase univ _ (mem_univ i), Function.update_self]
    congr 1
    exact prod_congr rfl fun l hl => by rw [Function.update_of_ne (ne_of_mem_erase hl)]
  rw [hp, hp, hp]
  obtain h | h : k i = 0 ∨ k i = 1 := by omega
  · rw [h, chebT_zero, chebT_zero, chebT_zero]; ring
  · rw [h, chebT_one, chebT_one, chebT_one]; ring

theorem square_not_bilinear {T : (Fin 2 → ℝ) → Fin 3 → ℝ} (hT : AffineMap' T) (i : Fin 3) {x y : Fin 2 → ℝ} (hxy : T x i ≠ T y i) :
    ¬ RestrictsToBilinear (squareOf i) T := by
  rintro ⟨M, hM, he⟩
  obtain ⟨A, v, hT⟩ := hT
  have key : ∀ k, A i k = 0 := by
    intro k
    have h := bilinear_second hM 0 k
    rw [he, he, he, squareOf_eval, squareOf_eval, squareOf_eval, hT, hT, hT] at h
    have e : ∀ t : ℝ, ∑ l, A i l * Function.update (0 : Fin 2 → ℝ) k t l = A i k * t := fun t => by
      rw [Finset.sum_eq_single k]
      · rw [Function.update_self]
      · intro l _ hl
        rw [Function.update_of_ne hl]; simp
      · simp
    rw [e, e, e] at h
    nlinarith
  apply hxy
  rw [hT, hT]
  simp [key]

/-- `2x² - 1`, `z`, `2y² - 1`. -/
example : ∃ (qs : List (Tensor 2 ℝ)) (T : (Fin 2 → ℝ) → Fin 3 → ℝ),
    removeLinear exRemove 0 3 ([squareOf 0] ++ planeZ :: [squareOf 1]) id = .ok ⟨2, qs, T, some true⟩ ∧
      ∃ x, InCube x ∧ T x = ![√2 / 2, √2 / 2, 0] ∧ ∀ q ∈ qs, q.eval x = 0 := by
  obtain ⟨h0, h1, h2, h3⟩ := planeZ_data
  have hs' : ∀ j, 1 < planeZ.shape j := fun j => by simp [planeZ]
  have hbig : ∀ i, linCoef planeZ i = 0 ∨ 1 / 10 ^ 8 < |linCoef planeZ i| := by
    intro i
    fin_cases i
    · exact Or.inl h1
    · exact Or.inl h2
    · right
      change 1 / 10 ^ 8 < |linCoef planeZ 2|
      rw [h3]; norm_num
  have hz : ∀ y : Fin 3 → ℝ, planeZ.eval y = y 2 := fun y => by
    rw [eval_linear hs' planeZ_linear, Fin.sum_univ_three, h0, h1, h2, h3]
    ring
  have hc : ∃ i, linCoef planeZ i ≠ 0 := ⟨2, by rw [h3]; norm_num⟩
  have hpt : ∀ y : Fin 3 → ℝ, InCube y → y 2 = 0 → ∃ x, projT (exRemove.lib 2) planeZ x = y := fun y hy h => by
    obtain ⟨x, -, hx⟩ := (C72_image_partial (exRemove.lib 2) planeZ y).2
      (C71_covers_partial _ (someProjLib_correct 2) planeZ hs' planeZ_linear hc hbig y hy (by rw [hz, h]))
    exact ⟨x, hx⟩
  have htd : ∀ i, TotalDegreeLE (squareOf i) 2 := fun i k _ hk => by
    have : k ≠ Pi.single i 2 := by
      rintro rfl
      simp at hk
    simp [squareOf, this]
  obtain ⟨a, ha⟩ := hpt ![1, 1, 0] (fun i => by fin_cases i <;> norm_num) rfl
  obtain ⟨b, hb⟩ := hpt ![0, 0, 0] (fun i => by fin_cases i <;> norm_num) rfl
  have hnb : ∀ i : Fin 3, i ≠ 2 → ¬ RestrictsToBilinear (squareOf i) (projT (exRemove.lib 2) planeZ) := fun i hi =>
    square_not_bilinear (projT_affine _ _) i (x := a) (y := b) (by rw [ha, hb]; fin_cases i <;> simp_all)
  obtain ⟨qs, T, hrun, -, -, hall⟩ := C97_three_partial exRemove (someProjLib_correct 2) 0 [squareOf 0] [squareOf 1] planeZ
    (by intro p hp; rw [List.mem_singleton.1 hp]; exact ⟨0, by simp [squareOf]⟩) (fun _ => rfl) planeZ_linear hc hbig (by simp)
    (by
      intro p hp
      simp only [List.singleton_append, List.mem_cons, List.not_mem_nil, or_false] at hp
      refine ⟨2, by norm_num, rfl, ?_, Or.inl (by change 0 < 2 + 1; norm_num)⟩
      rcases hp with rfl | rfl <;> exact htd _)
    (fun cs => ⟨cs, rfl, List.forall₂_same.2 fun _ _ _ => rfl⟩)
    (by
      intro p hp
      simp only [List.singleton_append, List.mem_cons, List.not_mem_nil, or_false] at hp
      rcases hp with rfl | rfl <;> exact hnb _ (by decide))
  have h22 : (√2 / 2) ^ 2 = 1 / 2 := by rw [div_pow, Real.sq_sqrt (by norm_num)]; norm_num
  have habs : |√2 / 2| ≤ 1 := abs_le_one_iff_mul_self_le_one.2 (by rw [← sq, h22]; norm_num)
  refine ⟨qs, T, hrun, hall _ ?_ ?_⟩
  · intro i
    fin_cases i
    · exact habs
    · exact habs
    · norm_num
  · intro p hp
    simp only [List.singleton_append, List.mem_cons, List.not_mem_nil, or_false] at hp
    rcases hp with rfl | rfl | rfl
    · rw [squareOf_eval]
      change 2 * (√2 / 2) ^ 2 - 1 = 0
      rw [h22]; norm_num
    · rw [hz]; rfl
    · rw [squareOf_eval]
      change 2 * (√2 / 2) ^ 2 - 1 = 0
      rw [h22]; norm_num

example : removeLinear exRemove 0 3 [squareOf 0, squareOf 1] id = .ok ⟨3, [squareOf 0, squareOf 1], id, some false⟩ :=
  C97_unchanged_partial exRemove 0 _ _ (by simp) (by
    intro p hp
    simp only [List.mem_cons, List.not_mem_nil, or_false] at hp
    rcases hp with rfl | rfl <;> exact ⟨0, by simp [squareOf]⟩) (by simp)

/-- The code as it is. -/
noncomputable def pinnedRemove : RemoveEnv := { exRemove with degree := pinnedDegree, trim := pinnedTrim }

example : removeLinear pinnedRemove 0 3 ([squareOf 0] ++ planeZ :: [squareOf 1]) id = .error .noDegree :=
  C97_attribute_false pinnedRemove rfl 0 _ _ _ _ (by intro p hp; rw [List.mem_singleton.1 hp]; exact ⟨0, by simp [squareOf]⟩) (fun _ => rfl) (by simp)

example : ∃ e, removeLinear { exRemove with trim := pinnedTrim } 0 3 [squareOf 0, planeZ, squareOf 1] id = .error e :=
  C97_raises_false _ rfl 0 _ _ (by simp) ⟨planeZ, by simp, fun _ => le_rfl⟩

end YRoots.Legacy
