import Verif.Props.SolveND
import Verif.Props.SolveLinear
import Verif.Props.MonCombos

/-!
# Property C84: what the roots stored by the subdivision solver are (`subdivision.py`)

Specification: `GoodRoot`, and `Faithful` of `Props/SolveND`.
-/

set_option linter.unusedSectionVars false
set_option linter.unusedVariables false

namespace YRoots.Legacy

open Finset

variable {n : ℕ} {K : Type*} [Field K] [LinearOrder K] [IsStrictOrderedRing K]

/-- Spec: `c` is on `B` within the tolerance of `f`, which depends on the norm that `full_cheb_approximate` found. -/
def CloseOn (lib : NDLib n K) (T : NDTols K) (τ : K) (B : Box n K) (f : (Fin n → K) → K) (c : Tensor n K) : Prop :=
  ∃ deg tol g M norm err, lib.approx f B deg tol g = (some M, norm, err) ∧
    ∀ t, InCube t → |f (toBox B.lo B.hi t) - c.eval t| ≤ τ + T.relTol * norm

/-- Spec: `x` is the point of a box with coordinates `z`, and the arrays `cs` are there within the tolerance of the functions. -/
def Explained (lib : NDLib n K) (T : NDTols K) (τ : K) (fs : List ((Fin n → K) → K)) (x : Fin n → K) (B : Box n K) (z : Fin n → K)
    (cs : List (Tensor n K)) : Prop :=
  B.Ordered ∧ InCube z ∧ toBox B.lo B.hi z = x ∧ ∃ gs, gs.Perm fs ∧ List.Forall₂ (CloseOn lib T τ B) gs cs

/-- Spec: a bound for the imaginary parts of an answer of `multiplication`: from `es`, numbers that are for each function at most the tolerance. -/
def ErrorsOf (lib : NDLib n K) (T : NDTols K) (τ : K) (B : Box n K) (fs : List ((Fin n → K) → K)) (es : List K) : Prop :=
  ∃ gs, gs.Perm fs ∧ List.Forall₂ (fun f e => 0 ≤ e ∧ ∃ deg tol g M norm err, lib.approx f B deg tol g = (some M, norm, err) ∧
    e ≤ τ + T.relTol * norm) gs es

/-- Spec: where a root comes from. -/
def GoodRoot (lib : NDLib (n + 1) K) (T : NDTols K) (targetDeg : ℕ) (τ : K) (fs : List ((Fin (n + 1) → K) → K)) (x : Fin (n + 1) → K) : Prop :=
  ∃ B z cs, Explained lib T τ fs x B z cs ∧
    ((∀ c ∈ cs, c.eval z = 0) ∨
      (∀ c ∈ cs, 1 < c.shape 0 ∧ c.shape 0 ≤ targetDeg + 1) ∧ (∃ c ∈ cs, c.shape 0 ≠ 2) ∧
        ∃ zs, lib.macaulay cs = .ok (some zs) ∧ ∃ w ∈ zs, (∀ i, (w i).1 = z i) ∧
          ∃ es, ErrorsOf lib T τ B fs es ∧ ∀ i, |(w i).2| ≤ max T.minGood (es.sum * T.factor))

theorem Tracker.addRoots_roots {s : Tracker n K} {zs : List (Fin n → K)} {a b : Fin n → K} {m : String} {x : Fin n → K}
    (h : x ∈ (s.addRoots zs a b m).roots) : x ∈ s.roots ∨ x ∈ zs ∧ ∀ i, a i < x i ∧ x i < b i := by
  unfold Tracker.addRoots at h
  have key : ∀ (l : List (Fin n → K)) (s : Tracker n K), x ∈ (l.foldl (Tracker.addOne a b m) s).roots →
      x ∈ s.roots ∨ x ∈ l ∧ ∀ i, a i < x i ∧ x i < b i := by
    intro l
    induction l with
    | nil => intro s h; exact .inl h
    | cons z l ih =>
      intro s h
      rcases ih _ h with h | h
      · unfold Tracker.addOne at h
        by_cases h1 : rootInBox z a b
        · rw [if_pos h1] at h
          simp only [Tracker.addRoot, List.mem_append, List.mem_singleton] at h
          rcases h with h | rfl
          · exact .inl h
          · simp only [rootInBox, Bool.and_eq_true, decide_eq_true_eq] at h1
            exact .inr ⟨by simp, fun i => ⟨h1.1 i, h1.2 i⟩⟩
        · rw [if_neg h1] at h
          split_ifs at h
          · exact .inl h
          · exact .inl h
      · exact .inr ⟨by simp [h.1], h.2⟩
  exact key zs s h

theorem transformPoint_eq (B : Box n K) (z : Fin n → K) : transformPoint B z = toBox B.lo B.hi z := by
  funext i
  simp only [transformPoint, toBox]
  ring

/-- Coordinates of a point strictly inside of the box. -/
theorem inCube_of_mem {B : Box n K} {z : Fin n → K} (h : ∀ i, B.lo i < toBox B.lo B.hi z i ∧ toBox B.lo B.hi z i < B.hi i) :
    B.Ordered ∧ InCube z := by
  have h1 : ∀ i, B.lo i < B.hi i := fun i => (h i).1.trans (h i).2
  refine ⟨fun i => (h1 i).le, fun i => ?_⟩
  have h2 := h i
  have h3 := h1 i
  simp only [toBox] at h2
  rw [abs_le]
  constructor <;> nlinarith

theorem evalTols_target {lib : NDLib n K} {T : NDTols K} {fs : List ((Fin n → K) → K)} {deg : ℕ} {τ : K} (hT : T.targetTol ≤ τ)
    (hn : ∀ f ∈ fs, ∀ B, ((deg * 2) ^ n - deg ^ n : K) * lib.noise f B ≤ τ) (level : ℕ) (B : Box n K) (u : Bool) {st : NDState n K}
    (h : st.targetTol ≤ τ) : (evalTols lib T level deg fs B u st).targetTol ≤ τ := by
  have key : ∀ (l : List ((Fin n → K) → K)) (t : K), (∀ f ∈ l, f ∈ fs) → t ≤ τ →
      l.foldl (fun t f => max t (((deg * 2) ^ n - deg ^ n : K) * lib.noise f B)) t ≤ τ := by
    intro l
    induction l with
    | nil => intro t _ h; exact h
    | cons f l ih => intro t hl h; exact ih _ (fun g hg => hl g (by simp [hg])) (max_le h (hn f (hl f (by simp)) B))
  unfold evalTols
  simp only []
  split_ifs with h1 h2 h3 h3
  · exact key fs _ (fun _ h => h) hT
  · exact hT
  · exact h
  · exact h
  · exact h

/-- The trimmed arrays are within the tolerance of the functions. -/
theorem trimmed_close {lib : NDLib (n + 1) K} {T : NDTols K} {trust : Bool} {τ : K} {B : Box (n + 1) K} (hB : B.Ordered) {deg : ℕ}
    {fs : List ((Fin (n + 1) → K) → K)} (hf : ∀ f ∈ fs, Faithful lib f) {l : List (Tensor (n + 1) K × K × K)} (hl : Approxd lib B deg fs l)
    {s : NDState (n + 1) K} (hτ : s.targetTol ≤ τ) (hgood : (trimCoeffs s.absTol T.relTol l).2 = true)
    (herr : ∀ p ∈ (trimErrors T trust l s).zip l, p.1 ≤ s.targetTol + T.relTol * p.2.2.1) :
    List.Forall₂ (CloseOn lib T τ B) fs ((trimCoeffs s.absTol T.relTol l).1.map Prod.fst) ∧
    ∀ c ∈ (trimCoeffs s.absTol T.relTol l).1, (∀ i, 1 < c.1.shape i) ∧ ∀ k ∈ c.1.idx, c.1.shape 0 ≤ ∑ i, k i → c.1.coef k = 0 := by
  unfold trimErrors at herr
  simp only [trimCoeffs, List.all_map, Function.comp_def, List.all_eq_true, List.map_map] at hgood herr ⊢
  unfold Approxd at hl
  induction hl with
  | nil => simp
  | @cons f p fs l hfp hl ih =>
    obtain ⟨tol, g, ha⟩ := hfp
    obtain ⟨⟨hs, hc⟩, hb⟩ := hf f (by simp) B deg tol g p.1 p.2.1 p.2.2 hB ha
    have h2 := ih (fun f hf' => hf f (by simp [hf'])) (fun q hq => hgood q (by simp [hq])) (fun q hq => herr q (by simp [hq]))
    have hsp := (trimOne_spec (Nat.succ_le_succ (Nat.zero_le n)) (s.absTol + T.relTol * p.2.1) p.1 p.2.2 (fun i => by have := hs i; omega) hc).1
      (hgood p (by simp))
    have he := herr (floorErr trust (trimOne (s.absTol + T.relTol * p.2.1) p.1 p.2.2).2.1, p) (by simp)
    simp only [List.map_cons, List.forall₂_cons, List.mem_cons, forall_eq_or_imp]
    refine ⟨⟨⟨deg, tol, g, p.1, p.2.1, p.2.2, ha, fun t ht => ?_⟩, h2.1⟩, ⟨trimOne_shape _ _ _ hs, fun k hk hle => ?_⟩, h2.2⟩
    · have h3 := hsp.bound t ht
      have h4 := hb t ht
      have h5 : (trimOne (s.absTol + T.relTol * p.2.1) p.1 p.2.2).2.1 ≤ floorErr trust (trimOne (s.absTol + T.relTol * p.2.1) p.1 p.2.2).2.1 := by
        unfold floorErr
        split_ifs
        · exact le_rfl
        · exact le_max_left _ _
      simp only [] at h3
      have h6 := abs_sub_le (f (toBox B.lo B.hi t)) (p.1.eval t) ((trimOne (s.absTol + T.relTol * p.2.1) p.1 p.2.2).1.eval t)
      simp only [] at he
      linarith
    · by_contra hne
      have := hsp.low k hk hne
      exact absurd hle (not_le.2 this)

/-- The errors of the trimmed arrays. -/
theorem trimmed_errors {lib : NDLib (n + 1) K} {T : NDTols K} {trust : Bool} {τ : K} {B : Box (n + 1) K} (hB : B.Ordered) {deg : ℕ}
    {fs : List ((Fin (n + 1) → K) → K)} (hf : ∀ f ∈ fs, Faithful lib f) {l : List (Tensor (n + 1) K × K × K)} (hl : Approxd lib B deg fs l)
    {s : NDState (n + 1) K} (hτ : s.targetTol ≤ τ) (hgood : (trimCoeffs s.absTol T.relTol l).2 = true)
    (herr : ∀ p ∈ (trimErrors T trust l s).zip l, p.1 ≤ s.targetTol + T.relTol * p.2.2.1) :
    List.Forall₂ (fun f e => 0 ≤ e ∧ ∃ deg tol g M norm err, lib.approx f B deg tol g = (some M, norm, err) ∧ e ≤ τ + T.relTol * norm) fs
      ((trimErrors T trust l s).map fun e => |e|) := by
  unfold trimErrors at herr ⊢
  simp only [trimCoeffs, List.all_map, Function.comp_def, List.all_eq_true, List.map_map] at hgood herr ⊢
  unfold Approxd at hl
  induction hl with
  | nil => simp
  | @cons f p fs l hfp hl ih =>
    obtain ⟨tol, g, ha⟩ := hfp
    obtain ⟨⟨hs, hc⟩, hb⟩ := hf f (by simp) B deg tol g p.1 p.2.1 p.2.2 hB ha
    have h2 := ih (fun f hf' => hf f (by simp [hf'])) (fun q hq => hgood q (by simp [hq])) (fun q hq => herr q (by simp [hq]))
    have hsp := (trimOne_spec (Nat.succ_le_succ (Nat.zero_le n)) (s.absTol + T.relTol * p.2.1) p.1 p.2.2 (fun i => by have := hs i; omega) hc).1
      (hgood p (by simp))
    have he := herr (floorErr trust (trimOne (s.absTol + T.relTol * p.2.1) p.1 p.2.2).2.1, p) (by simp)
    simp only [List.map_cons, List.forall₂_cons]
    have h0 : InCube (0 : Fin (n + 1) → K) := fun i => by simp
    have h3 := hsp.bound 0 h0
    have h4 := hb 0 h0
    have h5 := le_floorErr trust (trimOne (s.absTol + T.relTol * p.2.1) p.1 p.2.2).2.1
    have h6 := abs_nonneg (p.1.eval 0 - (trimOne (s.absTol + T.relTol * p.2.1) p.1 p.2.2).1.eval 0)
    have h7 := abs_nonneg (f (toBox B.lo B.hi 0) - p.1.eval 0)
    simp only [] at h3 he
    refine ⟨⟨abs_nonneg _, deg, tol, g, p.1, p.2.1, p.2.2, ha, ?_⟩, h2⟩
    rw [abs_of_nonneg (by linarith)]
    linarith

theorem linear_zero {S : LinSolve (n + 1) K} (hS : S.Exact) {cs : List (Tensor (n + 1) K)} (h1 : ∀ c ∈ cs, ∀ i, 1 < c.shape i)
    (h2 : ∀ c ∈ cs, ∀ k ∈ c.idx, c.shape 0 ≤ ∑ i, k i → c.coef k = 0) (h3 : ∀ c ∈ cs, c.shape 0 = 2) {zero : Fin (n + 1) → K}
    (h : solveLinearList S cs = .ok (some zero)) : ∀ c ∈ cs, c.eval zero = 0 := by
  unfold solveLinearList at h
  by_cases hlen : cs.length = n + 1
  · rw [dif_pos hlen] at h
    have hmem : ∀ i : Fin (n + 1), cs.get (i.cast hlen.symm) ∈ cs := fun i => List.get_mem _ _
    have hc := ((C61_solve_linear_partial hS (fun i => cs.get (i.cast hlen.symm)) (fun i j => h1 _ (hmem i) j) fun i k hk hlt =>
      h2 _ (hmem i) k hk (by rw [h3 _ (hmem i)]; omega)).1 zero).1 h
    have hz : zero ∈ commonRoots fun i : Fin (n + 1) => cs.get (i.cast hlen.symm) := by rw [hc]; rfl
    intro c hcm
    obtain ⟨i, rfl⟩ := List.get_of_mem hcm
    exact hz (i.cast hlen)
  · rw [dif_neg hlen] at h
    simp at h

theorem record_roots {st : NDState n K} {name : String} {zeros : List (Fin n → K × K)} {tol : K} {og B : Box n K} {x : Fin n → K}
    (h : x ∈ (record st name zeros tol og B).tracker.roots) : x ∈ st.tracker.roots ∨
      ∃ w ∈ zeros, B.Ordered ∧ InCube (fun i => (w i).1) ∧ toBox B.lo B.hi (fun i => (w i).1) = x ∧ ∀ i, |(w i).2| ≤ tol := by
  rcases Tracker.addRoots_roots h with h | ⟨h, hb⟩
  · exact .inl h
  · have h := (mem_zerosInInterval.1 h).1
    obtain ⟨y, hy, rfl⟩ := List.mem_map.1 h
    simp only [goodZerosND, List.mem_map, List.mem_filter] at hy
    obtain ⟨w, ⟨hw, hi⟩, rfl⟩ := hy
    rw [Bool.and_eq_true, decide_eq_true_eq, decide_eq_true_eq] at hi
    rw [transformPoint_eq] at hb ⊢
    have := inCube_of_mem hb
    exact .inr ⟨w, hw, this.1, this.2, rfl, hi.1⟩

theorem runs_good {lib : NDLib (n + 1) K} (hS : lib.solve.Exact) {T : NDTols K} {targetDeg : ℕ} {trust : Bool} {k lev : ℕ}
    {fs : List ((Fin (n + 1) → K) → K)} {deg : ℕ} {L : List (Box (n + 1) K)} {st st' : NDState (n + 1) K}
    (h : Runs lib T targetDeg trust k lev fs deg L st st') (ho : ∀ B ∈ L, B.Ordered) {fs0 : List ((Fin (n + 1) → K) → K)}
    (hperm : fs.Perm fs0) (hf : ∀ f ∈ fs0, Faithful lib f) {τ : K} (hT : T.targetTol ≤ τ)
    (hn : ∀ d, d = deg ∨ d = 2 → ∀ f ∈ fs0, ∀ B, ((d * 2) ^ (n + 1) - d ^ (n + 1) : K) * lib.noise f B ≤ τ) (hst : st.targetTol ≤ τ)
    {R : List (Fin (n + 1) → K)} (hroots : ∀ x ∈ st.tracker.roots, x ∈ R ∨ GoodRoot lib T targetDeg τ fs0 x) :
    st'.targetTol ≤ τ ∧ ∀ x ∈ st'.tracker.roots, x ∈ R ∨ GoodRoot lib T targetDeg τ fs0 x := by
  have hev : ∀ {d : ℕ} {gs : List ((Fin (n + 1) → K) → K)} (level : ℕ) (B : Box (n + 1) K) (u : Bool) {s : NDState (n + 1) K}, gs.Perm fs0 →
      (∀ f ∈ fs0, ∀ B, ((d * 2) ^ (n + 1) - d ^ (n + 1) : K) * lib.noise f B ≤ τ) → s.targetTol ≤ τ →
      (evalTols lib T level d gs B u s).targetTol ≤ τ := fun level B u _ hp hd hs =>
    evalTols_target hT (fun f hf' => hd f (hp.mem_iff.1 hf')) level B u hs
  induction h with
  | nil => exact ⟨hst, hroots⟩
  | @deep lev fs deg og rest st st' _ ih => exact ih (fun B hB => ho B (by simp [hB])) hperm hn hst hroots
  | @bad k lev fs deg og rest st st' u fs2 l L D st2 hp _ hg _ _ ih1 ih2 =>
    have hs := getSub_spec (ho og (by simp)) hg
    have h1 := ih1 (fun B hB => (hs.1 B hB).1) (hp.trans hperm) hn (hev lev og u hperm (hn deg (.inl rfl)) hst)
      (by simpa only [(evalTols_data lib T lev deg fs og u st).2] using hroots)
    exact ih2 (fun B hB => ho B (by simp [hB])) hperm hn h1.1 h1.2
  | @split k lev fs deg og rest st st' u l L D st2 _ hg _ _ ih1 ih2 =>
    have hs := getSub_spec (ho og (by simp)) hg
    have h1 := ih1 (fun B hB => (hs.1 B hB).1) hperm hn (hev lev og u hperm (hn deg (.inl rfl)) hst)
      (by simpa only [(evalTols_data lib T lev deg fs og u st).2] using hroots)
    exact ih2 (fun B hB => ho B (by simp [hB])) hperm hn h1.1 h1.2
  | @retry k lev fs deg og rest st st' u st2 hdeg _ _ ih1 ih2 =>
    have h1 := ih1 (fun B hB => by rw [List.mem_singleton.1 hB]; exact buffered_ordered (ho og (by simp))) hperm
      (fun d hd => hn d (.inr (hd.elim id id))) (hev lev og u hperm (hn deg (.inl rfl)) hst)
      (by simpa only [(evalTols_data lib T lev deg fs og u st).2] using hroots)
    exact ih2 (fun B hB => ho B (by simp [hB])) hperm hn h1.1 h1.2
  | @base k lev fs og rest st st' u l zero tol hl hgood herr h2 hsol _ ih =>
    have hogB := buffered_ordered (ho og (by simp))
    have ht := hev lev og u hperm (hn 2 (.inl rfl)) hst
    refine ih (fun B hB => ho B (by simp [hB])) hperm hn ht fun x hx => ?_
    rcases record_roots hx with hx | ⟨w, hw, -, hwc, hwx, -⟩
    · rw [(evalTols_data lib T lev 2 fs og u st).2] at hx
      exact hroots x hx
    · obtain ⟨hc, hc2⟩ := trimmed_close hogB (fun f hf' => hf f (hperm.mem_iff.1 hf')) hl ht hgood herr
      refine .inr ⟨_, _, _, ⟨hogB, hwc, hwx, fs, hperm, hc⟩, .inl ?_⟩
      obtain ⟨z, hz, rfl⟩ := List.mem_map.1 hw
      rw [Option.mem_toList] at hz
      rw [hz] at hsol
      have := linear_zero hS (fun c hc => by obtain ⟨q, hq, rfl⟩ := List.mem_map.1 hc; exact (hc2 q hq).1)
        (fun c hc => by obtain ⟨q, hq, rfl⟩ := List.mem_map.1 hc; exact (hc2 q hq).2)
        (fun c hc => by obtain ⟨q, hq, rfl⟩ := List.mem_map.1 hc; exact h2 q hq) hsol
      exact this
  | @macaulay k lev fs deg og rest st st' u l zeros hl hgood herr hle hne hmac _ ih =>
    have hogB := buffered_ordered (ho og (by simp))
    have ht := hev lev og u hperm (hn deg (.inl rfl)) hst
    refine ih (fun B hB => ho B (by simp [hB])) hperm hn ht fun x hx => ?_
    rcases record_roots hx with hx | ⟨w, hw, -, hwc, hwx, hwi⟩
    · rw [(evalTols_data lib T lev deg fs og u st).2] at hx
      exact hroots x hx
    · obtain ⟨hc, hc2⟩ := trimmed_close hogB (fun f hf' => hf f (hperm.mem_iff.1 hf')) hl ht hgood herr
      refine .inr ⟨_, _, _, ⟨hogB, hwc, hwx, fs, hperm, hc⟩, .inr ⟨?_, ?_, zeros, hmac, w, hw, fun _ => rfl, _, ⟨fs, hperm, ?_⟩, hwi⟩⟩
      · intro c hc
        obtain ⟨q, hq, rfl⟩ := List.mem_map.1 hc
        exact ⟨(hc2 q hq).1 0, hle q hq⟩
      · obtain ⟨q, hq, hqn⟩ := hne
        exact ⟨q.1, List.mem_map_of_mem hq, hqn⟩
      · exact trimmed_errors hogB (fun f hf' => hf f (hperm.mem_iff.1 hf')) hl ht hgood herr

/-- **C84** (roots).  Each root that the call stores lies in a box on which arrays `cs` are within `τ + rel_approx_tol * norm` of the functions,
where `τ` bounds the target tolerance and the noise that replaces it; it is a common zero of the arrays, or (only if one of them is not linear)
it comes from the answer of `multiplication` for them. -/
theorem C84_roots (lib : NDLib (n + 1) K) (hS : lib.solve.Exact) (T : NDTols K) (targetDeg : ℕ) (trust : Bool) (left level : ℕ)
    (fs : List ((Fin (n + 1) → K) → K)) (hf : ∀ f ∈ fs, Faithful lib f) (a b : Fin (n + 1) → K) (hab : ∀ i, a i ≤ b i) (deg : ℕ)
    (gd : List (Option ℕ)) (hgd : gd.length = fs.length) (u : Bool) (st st' : NDState (n + 1) K) (τ : K) (hT : T.targetTol ≤ τ)
    (hst : st.targetTol ≤ τ)
    (hn : ∀ d, d = deg ∨ d = 2 → ∀ f ∈ fs, ∀ B, ((d * 2) ^ (n + 1) - d ^ (n + 1) : K) * lib.noise f B ≤ τ)
    (h : solveND lib T targetDeg trust left level fs ⟨a, b⟩ deg gd u st = .ok st') :
    ∀ x ∈ st'.tracker.roots, x ∈ st.tracker.roots ∨ ∃ B z cs, Explained lib T τ fs x B z cs ∧
      ((∀ c ∈ cs, c.eval z = 0) ∨
        (∀ c ∈ cs, 1 < c.shape 0 ∧ c.shape 0 ≤ targetDeg + 1) ∧ (∃ c ∈ cs, c.shape 0 ≠ 2) ∧
          ∃ zs, lib.macaulay cs = .ok (some zs) ∧ ∃ w ∈ zs, (∀ i, (w i).1 = z i) ∧
            ∃ es, ErrorsOf lib T τ B fs es ∧ ∀ i, |(w i).2| ≤ max T.minGood (es.sum * T.factor)) := by
  have hr := solveND_runs lib T targetDeg trust left level fs ⟨a, b⟩ deg gd u st st' trivial hgd h [] st' .nil
  exact (runs_good hS hr (fun B hB => by rw [List.mem_singleton.1 hB]; exact hab) (.refl fs) hf hT hn hst fun x hx => .inl hx).2

/-- **C84** (residual).  With `target_deg = 1`, the default of `subdivide_to_linear`, the value of each function at a root that is stored is at most
`τ + rel_approx_tol * norm`.  (The norm is what `full_cheb_approximate` returned for a box with the root.) -/
theorem C84_residual_partial (lib : NDLib (n + 1) K) (hS : lib.solve.Exact) (T : NDTols K) (trust : Bool) (left level : ℕ)
    (fs : List ((Fin (n + 1) → K) → K)) (hf : ∀ f ∈ fs, Faithful lib f) (a b : Fin (n + 1) → K) (hab : ∀ i, a i ≤ b i) (deg : ℕ)
    (gd : List (Option ℕ)) (hgd : gd.length = fs.length) (u : Bool) (st st' : NDState (n + 1) K) (τ : K) (hT : T.targetTol ≤ τ)
    (hst : st.targetTol ≤ τ)
    (hn : ∀ d, d = deg ∨ d = 2 → ∀ f ∈ fs, ∀ B, ((d * 2) ^ (n + 1) - d ^ (n + 1) : K) * lib.noise f B ≤ τ)
    (h : solveND lib T 1 trust left level fs ⟨a, b⟩ deg gd u st = .ok st') :
    ∀ x ∈ st'.tracker.roots, x ∈ st.tracker.roots ∨ ∀ f ∈ fs, ∃ B d tol g M norm err, lib.approx f B d tol g = (some M, norm, err) ∧
      (∀ i, B.lo i ≤ x i ∧ x i ≤ B.hi i) ∧ |f x| ≤ τ + T.relTol * norm := by
  intro x hx
  rcases C84_roots lib hS T 1 trust left level fs hf a b hab deg gd hgd u st st' τ hT hst hn h x hx with hx | ⟨B, z, cs, hE, hz⟩
  · exact .inl hx
  · refine .inr fun f hf' => ?_
    obtain ⟨hB, hzc, rfl, gs, hperm, hcl⟩ := hE
    have hz0 : ∀ c ∈ cs, c.eval z = 0 := by
      rcases hz with hz | ⟨h1, ⟨c, hc, hne⟩, -⟩
      · exact hz
      · have := h1 c hc; omega
    obtain ⟨i, hi, rfl⟩ := List.getElem_of_mem (hperm.mem_iff.2 hf')
    have hlen := hcl.length_eq
    obtain ⟨d, tol, g, M, norm, err, ha, hb⟩ := hcl.get hi (hlen ▸ hi)
    refine ⟨B, d, tol, g, M, norm, err, ha, fun i => ?_, ?_⟩
    · have h1 := abs_le.1 (hzc i)
      have h2 := hB i
      simp only [toBox]
      constructor <;> nlinarith
    · have := hb z hzc
      rw [List.get_eq_getElem, List.get_eq_getElem, hz0 _ (List.getElem_mem _), sub_zero] at this
      exact this

end YRoots.Legacy
