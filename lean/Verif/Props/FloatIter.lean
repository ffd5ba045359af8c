import Verif.Proofs.FloatIter

/-!
# C111: the zoom loop in floating-point arithmetic does not lose a zero

Specification: `subPoint subs t` is the point of the cube that a point `t` of the innermost of the nested subintervals `subs` stands for, in exact
arithmetic.
-/

set_option linter.unusedSectionVars false

namespace YRoots

open Finset

/-- The point that `t` stands for, first subinterval outermost. -/
def subPoint {n : ℕ} {K : Type*} [Field K] (subs : List (Box n K)) (t : Fin n → K) : Fin n → K :=
  subs.foldr (fun B y j => (B.hi j - B.lo j) / 2 * y j + (B.hi j + B.lo j) / 2) t

/-- The claim of C111 for one run of the loop: a zero of the functions is still in the subinterval that is returned, the interval is not marked as
empty, and the arrays and errors returned describe the functions on the subinterval. -/
def ZoomKept {n : ℕ} {K : Type*} [Field K] [LinearOrder K] (fl : K → K) (F : Fin n → (Fin n → K) → K) (ti : TrackedInterval n K) (x : Fin n → K)
    (z : ZoomResult n K) : Prop :=
  z.ti.empty = false ∧ ∃ subs : List (Box n K), (∀ B ∈ subs, ∀ j, -1 ≤ B.lo j ∧ B.lo j ≤ B.hi j ∧ B.hi j ≤ 1) ∧
    z.ti = subs.foldl (fun t B => t.addTransformF fl B) ti ∧ (∃ y, InCube y ∧ subPoint subs y = x) ∧
    ∀ i t, InCube t → |F i (subPoint subs t) - (z.Ms i).eval t| ≤ z.errors i

section Loop

variable {n : ℕ} {ar : FloatArith ℝ} (hfl : RoundsToNearest 53 ar.fl) (hs : ar.Sums)

/-- What holds after `k` zooms, starting with `Ms0`, `E0`, `ti0`: `q` bounds the relative growth along one axis. -/
structure ZoomInv (ar : FloatArith ℝ) (Ms0 : Fin n → Tensor n ℝ) (E0 : Fin n → ℝ) (ti0 : TrackedInterval n ℝ) (F : Fin n → (Fin n → ℝ) → ℝ)
    (x : Fin n → ℝ) (τ q : ℝ) (k : ℕ) (Ms : Fin n → Tensor n ℝ) (errors : Fin n → ℝ) (ti : TrackedInterval n ℝ) (subs : List (Box n ℝ)) : Prop where
  empty : ti.empty = false
  final : ti.finalStep = false
  unit : ∀ B ∈ subs, ∀ j, -1 ≤ B.lo j ∧ B.lo j ≤ B.hi j ∧ B.hi j ≤ 1
  eq : ti = subs.foldl (fun t B => t.addTransformF ar.fl B) ti0
  root : ∃ y, InCube y ∧ subPoint subs y = x
  cube : ∀ t, InCube t → InCube (subPoint subs t)
  nonempty : ∀ i, (Ms i).Nonempty
  float : ∀ i, ∀ j ∈ (Ms i).idx, IsFloat 53 ((Ms i).coef j)
  shape : ∀ i j, (Ms i).shape j ≤ (Ms0 i).shape j
  nonneg : ∀ i, 0 ≤ errors i
  bound : ∀ i, ∃ g : ℝ, 0 ≤ g ∧ g ≤ ((1 + q) ^ (n * k) - 1) * (Ms0 i).absSum ∧
    (∀ t, InCube t → |F i (subPoint subs t) - (Ms i).eval t| ≤ E0 i - τ * ((Ms0 i).absSum + E0 i) + g) ∧
    (∀ t, InCube t → |(Ms i).eval t| ≤ (Ms0 i).absSum + g) ∧
    (1 - 1 / 2 ^ 29) ^ k * E0 i ≤ errors i ∧ errors i ≤ (1 + 1 / 2 ^ 29) ^ k * (E0 i + g)

theorem subPoint_append (subs : List (Box n ℝ)) (B : Box n ℝ) (t : Fin n → ℝ) :
    subPoint (subs ++ [B]) t = subPoint subs fun j => (B.hi j - B.lo j) / 2 * t j + (B.hi j + B.lo j) / 2 := by
  unfold subPoint
  rw [List.foldr_append]
  rfl

theorem sub_inCube {a b : Fin n → ℝ} (ha : InCube a) (hb : InCube b) {t : Fin n → ℝ} (ht : InCube t) :
    InCube fun j => (b j - a j) / 2 * t j + (b j + a j) / 2 := by
  intro j
  have h1 := abs_le.1 (ha j)
  have h2 := abs_le.1 (hb j)
  have h3 := abs_le.1 (ht j)
  rw [abs_le]
  constructor <;> nlinarith

include hfl hs

variable {Ms0 : Fin n → Tensor n ℝ} (hN0 : ∀ i, ∏ j, (Ms0 i).shape j ≤ 2 ^ 19) (hn0 : ∀ i, (∏ j, (Ms0 i).shape j + n + 10) * (2 * n + 1) ≤ 2 ^ 23)
  {N : ℕ} (hN : ∀ i j, (Ms0 i).shape j ≤ N) {C : ℝ} (hC : 1 ≤ C) (hC2 : ∀ i, 2 ^ n * ((∏ j, (Ms0 i).shape j : ℕ) : ℝ) ≤ C ^ 2)
  {E0 : Fin n → ℝ} (hE0 : ∀ i, 0 ≤ E0 i) {ti0 : TrackedInterval n ℝ} {F : Fin n → (Fin n → ℝ) → ℝ} {x : Fin n → ℝ}
  {svd : SvdF n ℝ} {ρ γ κ τ q θ : ℝ} (hsvd : svd.Accurate ρ γ) (hρ0 : 0 ≤ ρ) (hρ : ρ ≤ 1 / 2) (hγ0 : 0 ≤ γ) (hγ : γ ≤ 1)
  (hκ : 1 / 2 ^ 28 + 4 * ρ + 3 * γ ≤ κ) (hq : q = 21 * √(N : ℝ) ^ 3 * (N * macheps * C)) {K : ℕ} (hK : K ≤ 2 ^ 20) (hθ : θ = n * K * q)
  (hθ2 : θ ≤ 1 / 2) (hτ : 4 * κ * C + 2 * θ + K / 2 ^ 29 ≤ τ)

include hN0 hn0 hN hC hC2 hE0 hsvd hρ0 hρ hγ0 hγ hκ hq hK hθ hθ2 hτ

theorem ZoomInv.slack {k : ℕ} {Ms : Fin n → Tensor n ℝ} {errors : Fin n → ℝ} {ti : TrackedInterval n ℝ} {subs : List (Box n ℝ)}
    (h : ZoomInv ar Ms0 E0 ti0 F x τ q k Ms errors ti subs) (hk : k ≤ K) (i : Fin n) (t : Fin n → ℝ) (ht : InCube t) :
    |F i (subPoint subs t) - (Ms i).eval t| ≤ errors i - κ * ((Ms i).absSum + errors i) := by
  obtain ⟨g, g0, g1, g2, g3, g4, g5⟩ := h.bound i
  have hq0 : 0 ≤ q := by rw [hq]; unfold macheps; positivity
  have hS : 0 ≤ (Ms0 i).absSum := sum_nonneg fun _ _ => abs_nonneg _
  have hA : (Ms i).absSum ≤ C * ((Ms0 i).absSum + g) := by
    refine absSum_le_of_bound (Ms i) (h.nonempty i) g3 (by linarith) (le_trans (mul_le_mul_of_nonneg_left ?_ (by positivity)) (hC2 i))
    exact_mod_cast prod_le_prod' fun j _ => h.shape i j
  exact (g2 t ht).trans (slack_left hk hK hS (hE0 i) hq0 (by linarith) hC hθ hθ2 hτ g0 g1 g4 g5 hA)

/-- One zoom. -/
theorem ZoomInv.step (hroot : ∀ i, F i x = 0) {k : ℕ} {Ms : Fin n → Tensor n ℝ} {errors : Fin n → ℝ} {ti : TrackedInterval n ℝ}
    {subs : List (Box n ℝ)} (h : ZoomInv ar Ms0 E0 ti0 F x τ q k Ms errors ti subs) (hk : k ≤ K) :
    (∃ st, zoomInOnIntervalIterF ar svd Ms errors ti = .ok ⟨Ms, errors, ti, false, st⟩) ∨
      ∃ z subs', zoomInOnIntervalIterF ar svd Ms errors ti = .ok z ∧ ZoomInv ar Ms0 E0 ti0 F x τ q (k + 1) z.Ms z.errors z.ti subs' := by
  have hprod : ∀ i, ∏ j, (Ms i).shape j ≤ ∏ j, (Ms0 i).shape j := fun i => prod_le_prod' fun j _ => h.shape i j
  have hn : n ≤ 2 ^ 20 := by
    rcases Nat.eq_zero_or_pos n with h0 | h0
    · omega
    · have := hn0 ⟨0, h0⟩
      have h1 : 1 * (2 * n + 1) ≤ (∏ j, (Ms0 ⟨0, h0⟩).shape j + n + 10) * (2 * n + 1) := Nat.mul_le_mul_right _ (by omega)
      by_contra hlt
      push_neg at hlt
      have h2 : n * (2 * n + 1) ≤ 2 ^ 23 := le_trans (Nat.mul_le_mul_right _ (by omega)) this
      nlinarith
  obtain ⟨y, hy, hyx⟩ := h.root
  have hq0 : 0 ≤ q := by rw [hq]; unfold macheps; positivity
  rcases zoomIterF_cases hfl hs Ms h.nonempty h.float (fun i => (hprod i).trans ((hN0 i).trans (by norm_num)))
    (fun i => le_trans (Nat.mul_le_mul_right _ (by have := hprod i; omega)) (hn0 i)) errors h.nonneg svd hsvd hρ0 hρ hγ0 hγ hκ
    (fun i t => F i (subPoint subs t))
    (fun i t ht => h.slack hfl hs hN0 hn0 hN hC hC2 hE0 hsvd hρ0 hρ hγ0 hγ hκ hq hK hθ hθ2 hτ hk i t ht) y hy
    (fun i => by rw [hyx]; exact hroot i) ti h.final with h1 | ⟨a, b, st, hab, hz, hadd⟩
  · exact Or.inl h1
  refine Or.inr ⟨_, subs ++ [⟨a, b⟩], hz, ?_⟩
  have ha : InCube a := fun j => (hab j).1
  have hb : InCube b := fun j => (hab j).2.1
  have hstep : ∀ i, _ := fun i => zoom_array hfl hs hn (Ms i) (h.nonempty i) ((hprod i).trans (hN0 i)) (N := N) (fun j => (h.shape i j).trans (hN i j))
    (errors i) (h.nonneg i) a b (fun j => (hab j).2.2.2.2.1) (fun j => (hab j).2.2.2.2.2) ha hb
  constructor
  · show (ti.addTransformF ar.fl ⟨a, b⟩).empty = false
    rw [hadd]
    exact h.empty
  · show (ti.addTransformF ar.fl ⟨a, b⟩).finalStep = false
    rw [hadd]
    exact h.final
  · intro B hB j
    rcases List.mem_append.1 hB with hB | hB
    · exact h.unit B hB j
    · rw [List.mem_singleton.1 hB]
      exact ⟨(abs_le.1 (ha j)).1, (hab j).2.2.1.trans (hab j).2.2.2.1, (abs_le.1 (hb j)).2⟩
  · rw [List.foldl_append, ← h.eq]
    rfl
  · choose w hw1 hw2 using fun j => sub_coord (hab j).2.2.1 (hab j).2.2.2.1
    refine ⟨w, hw1, ?_⟩
    rw [subPoint_append, ← hyx]
    congr 1
    funext j
    exact hw2 j
  · intro t ht
    rw [subPoint_append]
    exact h.cube _ (sub_inCube ha hb ht)
  · intro i
    obtain ⟨G, -, -, -, h1, -⟩ := hstep i
    exact h1
  · intro i
    exact transformChebF_float hfl (Ms i) _ _ (errors i) (h.float i)
  · intro i j
    obtain ⟨G, -, -, -, -, h1, -⟩ := hstep i
    exact (h1 j).trans (h.shape i j)
  · intro i
    obtain ⟨G, h0, h1, -⟩ := hstep i
    have h2 := (abs_le.1 h1).1
    have h3 := h.nonneg i
    show 0 ≤ (transformChebF ar (Ms i) _ _ (errors i)).2
    linarith
  · intro i
    obtain ⟨G, G0, h1, h2, -, -, h3⟩ := hstep i
    obtain ⟨g, g0, g1, g2, g3, g4, g5⟩ := h.bound i
    have hS : 0 ≤ (Ms0 i).absSum := sum_nonneg fun _ _ => abs_nonneg _
    have h4 := h3 ((Ms0 i).absSum + g) C (by linarith)
      (le_trans (mul_le_mul_of_nonneg_left (by exact_mod_cast hprod i) (by positivity)) (hC2 i)) g3
    rw [← hq] at h4
    obtain ⟨Q, hQ⟩ : ∃ Q, Q = 21 * √(N : ℝ) ^ 3 := ⟨_, rfl⟩
    rw [← hQ] at h2 h4
    have hQ1 : 1 ≤ Q := by
      have : 1 ≤ √(N : ℝ) := Real.one_le_sqrt.2 (by exact_mod_cast (h.nonempty i i).trans_le ((h.shape i i).trans (hN i i)))
      have := one_le_pow₀ (n := 3) this
      rw [hQ]
      linarith
    have hp : 1 ≤ (1 + q) ^ n := one_le_pow₀ (by linarith)
    have hGQ : G ≤ Q * G := le_mul_of_one_le_left G0 hQ1
    refine ⟨g + Q * G, add_nonneg g0 (mul_nonneg (by linarith) G0), ?_, ?_, ?_, ?_, ?_⟩
    · rw [Nat.mul_succ, pow_add]
      have h5 := mul_le_mul_of_nonneg_left g1 (by linarith : 0 ≤ (1 + q) ^ n)
      nlinarith
    · intro t ht
      rw [subPoint_append]
      have h5 := g2 _ (sub_inCube ha hb ht)
      have h6 := h2 t ht
      refine (abs_sub_le _ _ _).trans ((add_le_add h5 h6).trans (le_of_eq ?_))
      ring
    · intro t ht
      have h5 := g3 _ (sub_inCube ha hb ht)
      have h6 := h2 t ht
      rw [abs_sub_comm] at h6
      have h7 := abs_sub_abs_le_abs_sub ((transformChebF ar (Ms i) (fun d => (getTransformPointsF ar.fl (a d) (b d)).1)
        (fun d => (getTransformPointsF ar.fl (a d) (b d)).2) (errors i)).1.eval t) ((Ms i).eval fun j => (b j - a j) / 2 * t j + (b j + a j) / 2)
      show |(transformChebF ar (Ms i) _ _ (errors i)).1.eval t| ≤ _
      linarith
    · show _ ≤ (transformChebF ar (Ms i) _ _ (errors i)).2
      have h5 := (abs_le.1 h1).1
      have h6 := mul_le_mul_of_nonneg_left g4 (by norm_num : (0 : ℝ) ≤ 1 - 1 / 2 ^ 29)
      rw [pow_succ _ k]
      linarith
    · show (transformChebF ar (Ms i) _ _ (errors i)).2 ≤ _
      have h5 := (abs_le.1 h1).2
      have h6 := mul_le_mul_of_nonneg_left g5 (by norm_num : (0 : ℝ) ≤ 1 + 1 / 2 ^ 29)
      have h7 : (1 : ℝ) ≤ (1 + 1 / 2 ^ 29) ^ k := one_le_pow₀ (by norm_num)
      have h8 : Q * G ≤ (1 + 1 / 2 ^ 29) ^ k * (Q * G) := le_mul_of_one_le_left (by linarith) h7
      rw [pow_succ _ k]
      nlinarith

/-- The loop, from any state that the invariant describes. -/
theorem ZoomInv.loop (hroot : ∀ i, F i x = 0) (maxZoomCount : ℕ) (fuel : ℕ) : ∀ {k : ℕ} {Ms : Fin n → Tensor n ℝ} {errors : Fin n → ℝ}
    {ti : TrackedInterval n ℝ} {subs : List (Box n ℝ)} (lastSizes : Fin n → ℝ) (zoomCount : ℕ), ZoomInv ar Ms0 E0 ti0 F x τ q k Ms errors ti subs →
    k + fuel ≤ K →
    zoomLoopF ar svd maxZoomCount fuel Ms errors ti lastSizes zoomCount = .error .outOfFuel ∨
      ∃ z, zoomLoopF ar svd maxZoomCount fuel Ms errors ti lastSizes zoomCount = .ok z ∧ ZoomKept ar.fl F ti0 x z := by
  have kept : ∀ {k : ℕ} {z : ZoomResult n ℝ} {subs : List (Box n ℝ)}, ZoomInv ar Ms0 E0 ti0 F x τ q k z.Ms z.errors z.ti subs → k ≤ K →
      ZoomKept ar.fl F ti0 x z := by
    intro k z subs h hk
    refine ⟨h.empty, subs, h.unit, h.eq, h.root, fun i t ht => ?_⟩
    refine (h.slack hfl hs hN0 hn0 hN hC hC2 hE0 hsvd hρ0 hρ hγ0 hγ hκ hq hK hθ hθ2 hτ hk i t ht).trans ?_
    have h1 : 0 ≤ (z.Ms i).absSum := sum_nonneg fun _ _ => abs_nonneg _
    have h2 := mul_nonneg (by linarith : 0 ≤ κ) (add_nonneg h1 (h.nonneg i))
    linarith
  induction fuel with
  | zero => exact fun _ _ _ _ => Or.inl rfl
  | succ fuel ih =>
    intro k Ms errors ti subs lastSizes zoomCount h hk
    unfold zoomLoopF
    rcases h.step hfl hs hN0 hn0 hN hC hC2 hE0 hsvd hρ0 hρ hγ0 hγ hκ hq hK hθ hθ2 hτ hroot (by omega) with ⟨st, h1⟩ | ⟨z, subs', h1, h2⟩
    · rw [h1]
      right
      simp only [h.empty, Bool.false_eq_true, false_and, if_false]
      exact ⟨_, rfl, kept (z := ⟨Ms, errors, ti, false, st⟩) h (by omega)⟩
    · rw [h1]
      simp only [h2.empty, Bool.false_eq_true, if_false]
      by_cases hc : z.changed = true ∧ (if ∀ i, ar.fl (z.ti.dimSize i) ≥ ar.fl (lastSizes i / 2) then zoomCount + 1 else zoomCount) ≤ maxZoomCount
      · rw [if_pos hc]
        exact ih _ _ h2 (by omega)
      · rw [if_neg hc]
        exact Or.inr ⟨z, rfl, kept h2 (by omega)⟩

end Loop

/-- **C111, part.**  The loop zooms at most `K` times; the linear algebra has errors `ρ` and `γ`; at most `N` entries along every axis, `C ^ 2` is at
least `2 ^ n` times the number of coefficients.  If the errors exceed the true ones by `τ` times the sums of the absolute values (and the errors), a zero
is never lost: the interval is not thrown out, the zero is in the subinterval returned, and the arrays and errors returned describe the functions there.
The loop raises no exception; it can only exhaust the bound on the number of zooms. -/
theorem C111_kept_partial {n : ℕ} {ar : FloatArith ℝ} (hfl : RoundsToNearest 53 ar.fl) (hs : ar.Sums) (Ms : Fin n → Tensor n ℝ)
    (hM : ∀ i, (Ms i).Nonempty) (hFl : ∀ i, ∀ k ∈ (Ms i).idx, IsFloat 53 ((Ms i).coef k)) (hsize : ∀ i, ∏ j, (Ms i).shape j ≤ 2 ^ 19)
    (hn : ∀ i, (∏ j, (Ms i).shape j + n + 10) * (2 * n + 1) ≤ 2 ^ 23) {N : ℕ} (hN : ∀ i j, (Ms i).shape j ≤ N)
    {C : ℝ} (hC : 1 ≤ C) (hC2 : ∀ i, 2 ^ n * ((∏ j, (Ms i).shape j : ℕ) : ℝ) ≤ C ^ 2) (errors : Fin n → ℝ) (he : ∀ i, 0 ≤ errors i)
    (svd : SvdF n ℝ) {ρ γ τ : ℝ} (hsvd : svd.Accurate ρ γ) (hρ0 : 0 ≤ ρ) (hρ : ρ ≤ 1 / 2) (hγ0 : 0 ≤ γ) (hγ : γ ≤ 1) {K : ℕ} (hK : K ≤ 2 ^ 20)
    (hθ : n * K * (21 * √(N : ℝ) ^ 3 * (N * (1 / 2 ^ 52) * C)) ≤ 1 / 2)
    (hτ : 4 * (1 / 2 ^ 28 + 4 * ρ + 3 * γ) * C + 2 * (n * K * (21 * √(N : ℝ) ^ 3 * (N * (1 / 2 ^ 52) * C))) + K / 2 ^ 29 ≤ τ)
    (F : Fin n → (Fin n → ℝ) → ℝ) (hF : ∀ i x, InCube x → |F i x - (Ms i).eval x| ≤ errors i - τ * ((Ms i).absSum + errors i))
    (x : Fin n → ℝ) (hx : InCube x) (hroot : ∀ i, F i x = 0) (ti : TrackedInterval n ℝ) (hti : ti.empty = false) (hfin : ti.finalStep = false)
    (maxZoomCount fuel : ℕ) (hfuel : fuel ≤ K) (lastSizes : Fin n → ℝ) (zoomCount : ℕ) :
    zoomLoopF ar svd maxZoomCount fuel Ms errors ti lastSizes zoomCount = .error .outOfFuel ∨
      ∃ z, zoomLoopF ar svd maxZoomCount fuel Ms errors ti lastSizes zoomCount = .ok z ∧ ZoomKept ar.fl F ti x z := by
  have hm : (macheps : ℝ) = 1 / 2 ^ 52 := rfl
  rw [← hm] at hθ hτ
  refine ZoomInv.loop hfl hs hsize hn hN hC hC2 he hsvd hρ0 hρ hγ0 hγ le_rfl rfl hK rfl hθ hτ hroot maxZoomCount fuel (k := 0) (subs := [])
    lastSizes zoomCount ?_ (by omega)
  refine ⟨hti, hfin, fun B hB => absurd hB List.not_mem_nil, rfl, ⟨x, hx, rfl⟩, fun t ht => ht, hM, hFl, fun _ _ => le_rfl, he, fun i => ⟨0, le_rfl, ?_, ?_, ?_,
    ?_, ?_⟩⟩
  · simp
  · intro t ht
    rw [add_zero]
    exact hF i t ht
  · intro t ht
    rw [add_zero]
    unfold Tensor.eval Tensor.absSum
    refine (abs_sum_le_sum_abs _ _).trans (sum_le_sum fun k _ => ?_)
    rw [abs_mul, abs_prod]
    exact mul_le_of_le_one_right (abs_nonneg _) (prod_le_one (fun _ _ => abs_nonneg _) fun j _ => abs_chebT_le_one _ (ht j))
  · simp
  · simp

/-- **C111 is false** without the slack: the witness of `C99_false` with exact linear algebra; the errors `2 ^ -52` are upper bounds, since the
polynomials are given exactly.  The loop marks the interval as empty although there is a zero. -/
theorem C111_false : ∃ ar : FloatArith ℚ, ar.fl = roundFloat 53 ∧ RoundsToNearest 53 ar.fl ∧ ar.Sums ∧
    ∃ (svd : SvdF 2 ℚ) (Ms : Fin 2 → Tensor 2 ℚ) (x : Fin 2 → ℚ), svd.Accurate 0 0 ∧ (∀ i, Affine (Ms i)) ∧
      (∀ i, ∀ k ∈ (Ms i).idx, IsFloat 53 ((Ms i).coef k)) ∧ InCube x ∧ (∀ i, (Ms i).eval x = 0) ∧
      ∃ z, zoomLoopF ar svd 25 1 Ms (fun _ => macheps) (TrackedInterval.new (Box.unit 2 ℚ)) (fun _ => 2) 0 = .ok z ∧
        ¬ ZoomKept ar.fl (fun i => (Ms i).eval) (TrackedInterval.new (Box.unit 2 ℚ)) x z := by
  refine ⟨exAr, rfl, roundFloat_nearest (by norm_num), leftSum_sums _, exSvdF2, exFM, ![-1, -1 / 2 ^ 21], exSvdF2_accurate, exFM_affine,
    fun i k _ => exFM_float i k, by intro i; fin_cases i <;> norm_num [abs_le], exFM_root, _,
    zoomLoopF_thrown exAr exSvdF2 exFM _ _ rfl (by decide +kernel) 25 0 _ 0, fun h => absurd h.1 (by simp)⟩

/-! ### Example -/

/-- Exact linear algebra. -/
noncomputable def exSvdR (n : ℕ) : SvdF n ℝ :=
  ⟨fun _ => 1, fun A => decide (A.det ≠ 0), fun A c j => -∑ i, A⁻¹ j i * c i, fun A e j => ∑ i, |A⁻¹ j i * e i|⟩

theorem exSvdR_accurate (n : ℕ) : (exSvdR n).Accurate 0 0 := by
  intro A h
  have h : IsUnit A.det := isUnit_iff_ne_zero.2 (of_decide_eq_true h)
  refine ⟨A⁻¹, fun j => le_of_eq ?_, fun c j => ?_, fun e j => ?_⟩
  · refine sum_eq_zero fun k _ => ?_
    rw [abs_eq_zero, sub_eq_zero, ← Matrix.mul_apply, Matrix.nonsing_inv_mul A h, Matrix.one_apply]
  · simp only [exSvdR]
    rw [neg_add_cancel, abs_zero, zero_mul]
  · simp only [exSvdR]
    rw [sub_self, abs_zero, zero_mul]

/-- `x + y / 4` and `y - x / 4`. -/
noncomputable def exIter : Fin 2 → Tensor 2 ℝ := fun i =>
  ⟨![2, 2], fun k => if k 0 = 1 ∧ k 1 = 0 then (if i = 0 then 1 else -(1 / 4)) else if k 0 = 0 ∧ k 1 = 1 then (if i = 0 then 1 / 4 else 1) else 0⟩

theorem exIter_affine (i : Fin 2) : Affine (exIter i) := by
  refine ⟨fun j => by fin_cases j <;> simp [exIter], fun k _ h => ?_⟩
  rw [Fin.sum_univ_two] at h
  simp only [exIter]
  rw [if_neg (by omega), if_neg (by omega)]

/-- The hypotheses of `C111_kept_partial` are met: functions that are `x y / 2 ^ 12` away from two affine polynomials, errors `2 ^ -10`, at most
100 zooms. -/
example (ar : FloatArith ℝ) (hfl : RoundsToNearest 53 ar.fl) (hs : ar.Sums) (lastSizes : Fin 2 → ℝ) :
    zoomLoopF ar (exSvdR 2) 25 100 exIter (fun _ => 1 / 2 ^ 10) (TrackedInterval.new (Box.unit 2 ℝ)) lastSizes 0 = .error .outOfFuel ∨
      ∃ z, zoomLoopF ar (exSvdR 2) 25 100 exIter (fun _ => 1 / 2 ^ 10) (TrackedInterval.new (Box.unit 2 ℝ)) lastSizes 0 = .ok z ∧
        ZoomKept ar.fl (fun i t => (exIter i).eval t + t 0 * t 1 / 2 ^ 12) (TrackedInterval.new (Box.unit 2 ℝ)) (fun _ => 0) z := by
  have hr : √((2 : ℕ) : ℝ) ≤ 2 := Real.sqrt_le_iff.2 ⟨by norm_num, by norm_num⟩
  have hr3 : √((2 : ℕ) : ℝ) ^ 3 ≤ 8 := (pow_le_pow_left₀ (Real.sqrt_nonneg _) hr 3).trans (by norm_num)
  have habs : ∀ i, (exIter i).absSum = 5 / 4 := by
    intro i
    rw [(exIter_affine i).absSum, Fin.sum_univ_two]
    fin_cases i <;> norm_num [exIter, Tensor.const, linCoef]
  refine C111_kept_partial hfl hs exIter (fun i => (exIter_affine i).nonempty) ?_ (fun i => by simp [exIter, Fin.prod_univ_two])
    (fun i => by simp [exIter, Fin.prod_univ_two]) (N := 2) (fun i j => by fin_cases j <;> simp [exIter]) (C := 4) (by norm_num)
    (fun i => by norm_num [exIter, Fin.prod_univ_two]) _ (fun _ => by norm_num) (exSvdR 2) (exSvdR_accurate 2) le_rfl (by norm_num) le_rfl (by norm_num)
    (K := 100) (by norm_num) ?_ (τ := 1 / 2 ^ 20) ?_ _ ?_ (fun _ => 0) (fun _ => by simp) ?_ _ rfl rfl 25 100 le_rfl lastSizes 0
  · intro i k _
    simp only [exIter]
    have f1 : IsFloat 53 (1 : ℝ) := ⟨1, 0, by norm_num, by norm_num⟩
    have f2 : IsFloat 53 (1 / 4 : ℝ) := ⟨1, -2, by norm_num, by norm_num⟩
    split_ifs
    · exact f1
    · exact f2.neg
    · exact f2
    · exact f1
    · exact isFloat_zero
  · push_cast at hr3 ⊢
    linarith
  · push_cast at hr3 ⊢
    linarith
  · intro i t ht
    rw [habs, add_sub_cancel_left, abs_div, abs_mul]
    have h1 := mul_le_mul (ht 0) (ht 1) (abs_nonneg _) zero_le_one
    have h2 : |(2 : ℝ) ^ 12| = 2 ^ 12 := abs_of_pos (by norm_num)
    rw [h2]
    have h3 : |t 0| * |t 1| / 2 ^ 12 ≤ 1 * 1 / 2 ^ 12 := div_le_div_of_nonneg_right h1 (by norm_num)
    refine h3.trans (by norm_num)
  · intro i
    rw [(exIter_affine i).eval, Fin.sum_univ_two]
    fin_cases i <;> norm_num [exIter, Tensor.const, linCoef]

end YRoots
