import Verif.Model.Solve
import Verif.Props.NoLostRoot
import Verif.Proofs.PolyArith

/-!
# Lemmas about `solve`
-/

set_option linter.unusedSectionVars false

namespace YRoots

variable {n : ℕ} {K : Type*} [Field K] [LinearOrder K] [IsStrictOrderedRing K] [FloorSemiring K]

theorem transformPt_eq_map (x a b : Fin n → K) : transformPt x a b = (Box.mk a b).map x := by
  funext i; simp only [transformPt, Box.map]; ring

theorem mem_boolProduct : ∀ (n : ℕ) (v : Fin n → Bool), v ∈ boolProduct n
  | 0, v => by simp only [boolProduct, List.mem_singleton]; exact Subsingleton.elim _ _
  | n + 1, v => by
    simp only [boolProduct, List.mem_flatMap, List.mem_map]
    exact ⟨v 0, by cases v 0 <;> simp, Fin.tail v, mem_boolProduct n _, Fin.cons_self_tail v⟩

theorem nodup_boolProduct : ∀ n : ℕ, (boolProduct n).Nodup
  | 0 => by simp [boolProduct]
  | n + 1 => by
    have ih := nodup_boolProduct n
    simp only [boolProduct, List.flatMap_cons, List.flatMap_nil, List.append_nil]
    refine List.Nodup.append (ih.map fun a b h => (Fin.cons_injective2 h).2)
      (ih.map fun a b h => (Fin.cons_injective2 h).2) ?_
    intro v h1 h2
    rw [List.mem_map] at h1 h2
    obtain ⟨u, -, rfl⟩ := h1
    obtain ⟨w, -, hw⟩ := h2
    exact absurd (congrFun hw 0) (by simp)

/-- What a run of `solve` that returns has done. -/
theorem solve_cases' (env : Env n K) (approx : Approximator n K) (funcs : Fin n → Func n K) (exact : Bool) (minSize : K)
    (fuel : ℕ) (a b : Fin n → K) (r : SolveResult n K)
    (h : solve env approx funcs exact minSize (fuel + 1) a b = .ok r) :
    (∀ i, a i ≤ b i) ∧ ∃ polys errs roots0 bxs, (∀ i, approxOne approx (funcs i) a b = .ok (polys i, errs i)) ∧
      solveChebyshevSubdivision env fuel polys errs exact true true false = .ok (roots0, bxs) ∧
      ((wholeBox bxs a b minSize = true ∧ ∃ rs, ((boolProduct n).mapM fun val =>
          solve env approx funcs exact minSize fuel (splitBox a b val).1 (splitBox a b val).2) = .ok rs ∧
          r = stack (rs.map keepNonempty)) ∨
       wholeBox bxs a b minSize = false ∧ ∃ rs, bxs.mapM (finishBox (solve env approx funcs exact minSize fuel) a b minSize) = .ok rs ∧ r = stack rs) := by
  unfold solve at h
  split_ifs at h with hab
  push Not at hab
  refine ⟨hab, ?_⟩
  split at h
  · cases h
  · rename_i ps hps
    have hp : ∀ i : Fin n, approxOne approx (funcs i) a b =
        .ok ((ps.getD i (⟨fun _ => 0, fun _ => 0⟩, 0)).1, (ps.getD i (⟨fun _ => 0, fun _ => 0⟩, 0)).2) := by
      intro i
      have h2 := mapM_forall₂ hps
      have hlen := h2.length_eq
      rw [List.length_finRange] at hlen
      have h3 := List.forall₂_iff_get.1 h2
      have h4 := h3.2 i (by simp) (hlen ▸ i.2)
      simp only [List.get_eq_getElem, List.getElem_finRange, Fin.cast_mk, Fin.eta] at h4
      rw [h4, List.getD_eq_getElem?_getD, List.getElem?_eq_getElem (hlen ▸ i.2), Option.getD_some]
    simp only at h
    split at h
    · cases h
    · rename_i _ roots0 bxs hs
      refine ⟨_, _, roots0, bxs, hp, hs, ?_⟩
      split_ifs at h with hw
      · left
        split at h
        · cases h
        · rename_i rs hrs; cases h; exact ⟨hw, rs, hrs, rfl⟩
      · right
        split at h
        · cases h
        · rename_i rs hrs; cases h; exact ⟨by simpa using hw, rs, hrs, rfl⟩

/-- The recursive calls are on valid boxes. -/
theorem solve_ok_le (env : Env n K) (approx : Approximator n K) (funcs : Fin n → Func n K) (exact : Bool) (minSize : K)
    (fuel : ℕ) (a b : Fin n → K) (r : SolveResult n K)
    (h : solve env approx funcs exact minSize fuel a b = .ok r) : ∀ i, a i ≤ b i := by
  cases fuel with
  | zero => cases h
  | succ fuel => exact (solve_cases' env approx funcs exact minSize fuel a b r h).1

theorem mem_stack_roots {rs : List (SolveResult n K)} {p : Fin n → K} :
    p ∈ (stack rs).1 ↔ ∃ r ∈ rs, p ∈ r.1 := by simp [stack, List.mem_flatMap]

theorem mem_stack_boxes {rs : List (SolveResult n K)} {B : Box n K} :
    B ∈ (stack rs).2 ↔ ∃ r ∈ rs, B ∈ r.2 := by simp [stack, List.mem_flatMap]

/-- Everything about the result except that no root is lost. -/
structure ResultOK (a b : Fin n → K) (r : SolveResult n K) : Prop where
  boxes : ∀ B ∈ r.2, B.Ordered ∧ B.Within ⟨a, b⟩
  roots : ∀ p ∈ r.1, ∃ B ∈ r.2, B.Mem p
  sync : ∀ B ∈ r.2, ∃ p ∈ r.1, B.Mem p

theorem ResultOK.keep {a b : Fin n → K} {r : SolveResult n K} (h : ResultOK a b r) : keepNonempty r = r := by
  unfold keepNonempty
  split_ifs with h1
  · rfl
  · rw [not_not, List.length_eq_zero_iff] at h1
    have h2 : r.2 = [] := by
      rw [List.eq_nil_iff_forall_not_mem]
      intro B hB
      obtain ⟨p, hp, -⟩ := h.sync B hB
      rw [h1] at hp; simp at hp
    exact Prod.ext h1.symm h2.symm

theorem ResultOK.mono {a b a' b' : Fin n → K} {r : SolveResult n K} (h : ResultOK a' b' r)
    (hab : ∀ i, a i ≤ a' i ∧ b' i ≤ b i) : ResultOK a b r where
  boxes B hB := ⟨(h.boxes B hB).1, fun i => ⟨(hab i).1.trans ((h.boxes B hB).2 i).1, ((h.boxes B hB).2 i).2.trans (hab i).2⟩⟩
  roots := h.roots
  sync := h.sync

theorem ResultOK.stack {a b : Fin n → K} {rs : List (SolveResult n K)} (h : ∀ r ∈ rs, ResultOK a b r) :
    ResultOK a b (stack rs) where
  boxes B hB := by
    obtain ⟨r, hr, hB⟩ := mem_stack_boxes.1 hB
    exact (h r hr).boxes B hB
  roots p hp := by
    obtain ⟨r, hr, hp⟩ := mem_stack_roots.1 hp
    obtain ⟨B, hB, hm⟩ := (h r hr).roots p hp
    exact ⟨B, mem_stack_boxes.2 ⟨r, hr, hB⟩, hm⟩
  sync B hB := by
    obtain ⟨r, hr, hB⟩ := mem_stack_boxes.1 hB
    obtain ⟨p, hp, hm⟩ := (h r hr).sync B hB
    exact ⟨p, mem_stack_roots.2 ⟨r, hr, hp⟩, hm⟩

theorem transformPt_mono {a b : Fin n → K} (hab : ∀ i, a i ≤ b i) {x y : Fin n → K} {i : Fin n} (h : x i ≤ y i) :
    transformPt x a b i ≤ transformPt y a b i := by
  unfold transformPt
  have := mul_le_mul_of_nonneg_left h (sub_nonneg.2 (hab i))
  linarith

theorem transformPt_within {a b : Fin n → K} (hab : ∀ i, a i ≤ b i) {x : Fin n → K} {i : Fin n} (h1 : -1 ≤ x i) (h2 : x i ≤ 1) :
    a i ≤ transformPt x a b i ∧ transformPt x a b i ≤ b i := by
  unfold transformPt
  have h3 := mul_le_mul_of_nonneg_left h1 (sub_nonneg.2 (hab i))
  have h4 := mul_le_mul_of_nonneg_left h2 (sub_nonneg.2 (hab i))
  constructor <;> linarith

/-- One bounding interval of the sub-solver, given the recursive calls. -/
theorem finishBox_ok {rec : (Fin n → K) → (Fin n → K) → Except Exc (SolveResult n K)} {a b : Fin n → K} {minSize : K}
    (hab : ∀ i, a i ≤ b i)
    (ih : ∀ a' b' r, rec a' b' = .ok r → ResultOK a' b' r) {t : TrackedInterval n K}
    (hO : t.getFinalInterval.Ordered) (hW : t.getFinalInterval.Within (Box.unit n K))
    (hR : ∀ p ∈ reportedRoots t, t.getFinalInterval.Mem p) {r : SolveResult n K}
    (h : finishBox rec a b minSize t = .ok r) : ResultOK a b r := by
  have hlo : ∀ i, a i ≤ transformPt t.getFinalInterval.lo a b i := fun i =>
    (transformPt_within hab (hW i).1 ((hO i).trans (hW i).2)).1
  have hhi : ∀ i, transformPt t.getFinalInterval.hi a b i ≤ b i := fun i =>
    (transformPt_within hab ((hW i).1.trans (hO i)) (hW i).2).2
  unfold finishBox at h
  simp only at h
  split_ifs at h with h1 h2
  · split at h
    · cases h
    · rename_i r' hr
      cases h
      have := ih _ _ _ hr
      rw [this.keep]
      exact this.mono fun i => ⟨hlo i, hhi i⟩
  · cases h
    have hmem : ∀ p ∈ t.possibleDuplicateRoots,
        (Box.mk (transformPt t.getFinalInterval.lo a b) (transformPt t.getFinalInterval.hi a b)).Mem
          (transformPt p a b) := by
      intro p hp i
      have hm := hR p (by unfold reportedRoots; rw [if_pos h2]; exact hp) i
      exact ⟨transformPt_mono hab hm.1, transformPt_mono hab hm.2⟩
    refine ⟨?_, ?_, ?_⟩
    · intro B hB
      rw [List.mem_singleton] at hB; subst hB
      exact ⟨fun i => transformPt_mono hab (hO i), fun i => ⟨hlo i, hhi i⟩⟩
    · intro p hp
      obtain ⟨q, hq, rfl⟩ := List.mem_map.1 hp
      exact ⟨_, List.mem_singleton_self _, hmem q hq⟩
    · intro B hB
      rw [List.mem_singleton] at hB; subst hB
      obtain ⟨q, hq⟩ := List.exists_mem_of_length_pos h2
      exact ⟨_, List.mem_map.2 ⟨q, hq, rfl⟩, hmem q hq⟩
  · cases h
    have hmem : (Box.mk (transformPt t.getFinalInterval.lo a b) (transformPt t.getFinalInterval.hi a b)).Mem
          (transformPt t.getFinalPoint a b) := by
      intro i
      have hm := hR t.getFinalPoint (by unfold reportedRoots; rw [if_neg h2]; simp) i
      exact ⟨transformPt_mono hab hm.1, transformPt_mono hab hm.2⟩
    refine ⟨?_, ?_, ?_⟩
    · intro B hB
      rw [List.mem_singleton] at hB; subst hB
      exact ⟨fun i => transformPt_mono hab (hO i), fun i => ⟨hlo i, hhi i⟩⟩
    · intro p hp
      rw [List.mem_singleton] at hp; subst hp
      exact ⟨_, List.mem_singleton_self _, hmem⟩
    · intro B hB
      rw [List.mem_singleton] at hB; subst hB
      exact ⟨_, List.mem_singleton_self _, hmem⟩

/-- Split boxes of a valid run lie in the box. -/
theorem splitBox_within {a b : Fin n → K} (h : ∀ val i, (splitBox a b val).1 i ≤ (splitBox a b val).2 i) (val : Fin n → Bool) (i : Fin n) :
    a i ≤ (splitBox a b val).1 i ∧ (splitBox a b val).2 i ≤ b i := by
  have h1 := h (fun _ => false) i
  have h2 := h (fun _ => true) i
  simp only [splitBox, Bool.false_eq_true, if_false, if_true] at h1 h2 ⊢
  cases val i <;> simp [h1, h2]

theorem solve_resultOK (env : Env n K) (approx : Approximator n K) (funcs : Fin n → Func n K) (exact : Bool) (minSize : K)
    (fuel : ℕ) (a b : Fin n → K) (r : SolveResult n K)
    (h : solve env approx funcs exact minSize fuel a b = .ok r) : ResultOK a b r := by
  induction fuel generalizing a b r with
  | zero => cases h
  | succ fuel ih =>
    obtain ⟨hab, polys, errs, roots0, bxs, -, hs, h⟩ := solve_cases' env approx funcs exact minSize fuel a b r h
    have h29 := (C29_roots_in_boxes env fuel polys errs exact true true false roots0 bxs hs).1
    rcases h with ⟨-, rs, hrs, rfl⟩ | ⟨-, rs, hrs, rfl⟩
    · refine ResultOK.stack fun r hr => ?_
      obtain ⟨r', hr', rfl⟩ := List.mem_map.1 hr
      obtain ⟨val, -, hval⟩ := mapM_mem hrs hr'
      have h1 := ih _ _ _ hval
      rw [h1.keep]
      refine h1.mono (splitBox_within (fun val i => ?_) val)
      obtain ⟨r'', -, hv⟩ := mapM_mem' hrs (mem_boolProduct n val)
      exact solve_ok_le env approx funcs exact minSize fuel _ _ _ hv i
    · refine ResultOK.stack fun r hr => ?_
      obtain ⟨t, ht, hval⟩ := mapM_mem hrs hr
      obtain ⟨hO, hW, -, hR⟩ := h29 t ht
      exact finishBox_ok hab (fun a' b' r' => ih a' b' r') hO hW (fun p hp => (hR p hp).2) hval

/-- The boxes on which a run of `solve` with given fuel computes approximations: the box itself, and those of the
recursive calls it makes on split boxes and on large bounding boxes. -/
inductive Visited (env : Env n K) (approx : Approximator n K) (funcs : Fin n → Func n K) (exact : Bool) (minSize : K) :
    ℕ → (Fin n → K) → (Fin n → K) → (Fin n → K) → (Fin n → K) → Prop
  | self (fuel : ℕ) (a b : Fin n → K) : Visited env approx funcs exact minSize (fuel + 1) a b a b
  | split (fuel : ℕ) (a b a' b' : Fin n → K) (polys : Fin n → Tensor n K) (errs : Fin n → K)
      (roots : List (Fin n → K)) (bxs : List (TrackedInterval n K)) (val : Fin n → Bool)
      (hap : ∀ i, approxOne approx (funcs i) a b = .ok (polys i, errs i))
      (hs : solveChebyshevSubdivision env fuel polys errs exact true true false = .ok (roots, bxs))
      (hw : wholeBox bxs a b minSize = true)
      (h : Visited env approx funcs exact minSize fuel (splitBox a b val).1 (splitBox a b val).2 a' b') :
      Visited env approx funcs exact minSize (fuel + 1) a b a' b'
  | resolve (fuel : ℕ) (a b a' b' : Fin n → K) (polys : Fin n → Tensor n K) (errs : Fin n → K)
      (roots : List (Fin n → K)) (bxs : List (TrackedInterval n K)) (t : TrackedInterval n K)
      (hap : ∀ i, approxOne approx (funcs i) a b = .ok (polys i, errs i))
      (hs : solveChebyshevSubdivision env fuel polys errs exact true true false = .ok (roots, bxs))
      (hw : wholeBox bxs a b minSize = false) (ht : t ∈ bxs)
      (hsize : ∀ i, transformPt t.getFinalInterval.hi a b i - transformPt t.getFinalInterval.lo a b i >
        minSize * max (max |a i| |b i|) 1)
      (h : Visited env approx funcs exact minSize fuel (transformPt t.getFinalInterval.lo a b)
        (transformPt t.getFinalInterval.hi a b) a' b') :
      Visited env approx funcs exact minSize (fuel + 1) a b a' b'

/-- No root is lost, given valid approximation errors on all visited boxes. -/
theorem solve_complete_of (env : Env n K) (la : LinAlg n K) (henv : env.OK la false) (approx : Approximator n K)
    (funcs : Fin n → Func n K) (exact : Bool) (N : ℕ) (hT : TransformOK K n exact N) (minSize : K)
    (F : Fin n → (Fin n → K) → K) (fuel : ℕ) (a b : Fin n → K) (r : SolveResult n K)
    (h : solve env approx funcs exact minSize fuel a b = .ok r)
    (hA : ∀ a' b', Visited env approx funcs exact minSize fuel a b a' b' → ∀ i M e, approxOne approx (funcs i) a' b' = .ok (M, e) →
      (∀ j, 0 < M.shape j ∧ M.shape j ≤ N) ∧ ∀ x, InCube x → |F i (transformPt x a' b') - M.eval x| < e)
    (y : Fin n → K) (hy : (Box.mk a b).Mem y) (hroot : ∀ i, F i y = 0) : ∃ B ∈ r.2, B.Mem y := by
  induction fuel generalizing a b r with
  | zero => cases h
  | succ fuel ih =>
    obtain ⟨hab, polys, errs, roots0, bxs, hap, hs, h⟩ := solve_cases' env approx funcs exact minSize fuel a b r h
    have h29 := (C29_roots_in_boxes env fuel polys errs exact true true false roots0 bxs hs).1
    rcases h with ⟨hwb, rs, hrs, rfl⟩ | ⟨hwb, rs, hrs, rfl⟩
    · have hval : ∀ val i, (splitBox a b val).1 i ≤ (splitBox a b val).2 i := by
        intro val i
        obtain ⟨r'', -, hv⟩ := mapM_mem' hrs (mem_boolProduct n val)
        exact solve_ok_le env approx funcs exact minSize fuel _ _ _ hv i
      set val : Fin n → Bool := fun i => decide (midPoint a b i ≤ y i) with hv
      have hmem : (Box.mk (splitBox a b val).1 (splitBox a b val).2).Mem y := by
        intro i
        simp only [splitBox, hv, decide_eq_true_eq]
        split_ifs with h1
        · exact ⟨h1, (hy i).2⟩
        · exact ⟨(hy i).1, (not_le.1 h1).le⟩
      obtain ⟨r, hr, hrec⟩ := mapM_mem' hrs (mem_boolProduct n val)
      obtain ⟨B, hB, hBy⟩ := ih _ _ r hrec (fun a' b' hv' => hA a' b'
        (.split fuel a b a' b' polys errs roots0 bxs val hap hs hwb hv')) hmem
      refine ⟨B, mem_stack_boxes.2 ⟨keepNonempty r, List.mem_map.2 ⟨r, hr, rfl⟩, ?_⟩, hBy⟩
      rw [(solve_resultOK env approx funcs exact minSize fuel _ _ _ hrec).keep]
      exact hB
    · obtain ⟨x, hx, hxy⟩ := TrackedInterval.exists_map_eq (Box.mk a b) hy
      rw [← transformPt_eq_map] at hxy
      have hA0 := fun i => hA a b (.self fuel a b) i _ _ (hap i)
      obtain ⟨t, ht, htx⟩ := solver_complete env la exact true true false henv N hT fuel polys errs roots0 bxs
        (fun i => (hA0 i).1) hs (fun i x => F i (transformPt x a b)) (fun i => (hA0 i).2) x hx
        (fun i => by rw [hxy]; exact hroot i)
      obtain ⟨hO, hW, -, hR⟩ := h29 t ht
      obtain ⟨r, hr, hf⟩ := mapM_mem' hrs ht
      have hmem : (Box.mk (transformPt t.getFinalInterval.lo a b) (transformPt t.getFinalInterval.hi a b)).Mem y := by
        intro i
        rw [← hxy]
        exact ⟨transformPt_mono hab (htx i).1, transformPt_mono hab (htx i).2⟩
      have hlo : ∀ i, a i ≤ transformPt t.getFinalInterval.lo a b i := fun i =>
        (transformPt_within hab (hW i).1 ((hO i).trans (hW i).2)).1
      have hhi : ∀ i, transformPt t.getFinalInterval.hi a b i ≤ b i := fun i =>
        (transformPt_within hab ((hW i).1.trans (hO i)) (hW i).2).2
      suffices hB : ∃ B ∈ r.2, B.Mem y by
        obtain ⟨B, hB, hBy⟩ := hB
        exact ⟨B, mem_stack_boxes.2 ⟨r, hr, hB⟩, hBy⟩
      unfold finishBox at hf
      simp only at hf
      split_ifs at hf with h1 h2
      · split at hf
        · cases hf
        · rename_i r' hr'
          cases hf
          rw [(solve_resultOK env approx funcs exact minSize fuel _ _ _ hr').keep]
          exact ih _ _ r' hr' (fun a' b' hv' => hA a' b'
            (.resolve fuel a b a' b' polys errs roots0 bxs t hap hs hwb ht h1 hv')) hmem
      · cases hf; exact ⟨_, List.mem_singleton_self _, hmem⟩
      · cases hf; exact ⟨_, List.mem_singleton_self _, hmem⟩

end YRoots
