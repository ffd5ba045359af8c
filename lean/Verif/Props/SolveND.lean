import Verif.Proofs.RootTracker
import Verif.Proofs.SolveND
import Verif.Proofs.TrimCoeffs

/-!
# Property C83: the subdivision solver of the legacy code in several variables (`subdivision.py`)

Specification: `leafNames` are the names under which an interval is tracked that was not shown to be free of roots; `Faithful` says that what
`full_cheb_approximate` returns is within its error on the box it was asked for.
-/

set_option linter.unusedSectionVars false
set_option linter.unusedVariables false

namespace YRoots.Legacy

open Finset

variable {n : ℕ} {K : Type*} [Field K] [LinearOrder K] [IsStrictOrderedRing K]

/-- Spec: the names of intervals on which the search ended without an exclusion. -/
def leafNames : List String := ["Base Case", "Macaulay", "Too Deep"]

theorem mem_zerosInInterval {zeros : List (Fin n → K)} {B : Box n K} {x : Fin n → K} :
    x ∈ zerosInInterval zeros B ↔ x ∈ zeros ∧ ∀ i, B.lo i - 1 / 10 ^ 9 ≤ x i ∧ x i ≤ B.hi i + 1 / 10 ^ 9 := by
  unfold zerosInInterval
  have key : ∀ (l : List (Fin n)) (zs : List (Fin n → K)),
      x ∈ l.foldl (fun zs i => (zs.filter fun z => decide (z i - B.lo i ≥ -(1 / 10 ^ 9))).filter
        fun z => decide (z i - B.hi i ≤ 1 / 10 ^ 9)) zs ↔ x ∈ zs ∧ ∀ i ∈ l, B.lo i - 1 / 10 ^ 9 ≤ x i ∧ x i ≤ B.hi i + 1 / 10 ^ 9 := by
    intro l
    induction l with
    | nil => simp
    | cons j l ih =>
      intro zs
      rw [List.foldl_cons, ih]
      simp only [List.mem_filter, decide_eq_true_eq, List.mem_cons, forall_eq_or_imp, and_assoc]
      refine and_congr_right fun _ => ?_
      constructor
      · rintro ⟨h1, h2, h3⟩; exact ⟨by linarith, by linarith, h3⟩
      · rintro ⟨h1, h2, h3⟩; exact ⟨by linarith, by linarith, h3⟩
  simpa using key (List.finRange n) zeros

/-- `P` holds of all roots kept. -/
def Tracker.AllRoots (P : (Fin n → K) → Prop) (s : Tracker n K) : Prop := (∀ x ∈ s.roots, P x) ∧ ∀ d ∈ s.possibleDuplicates, P d.zero

theorem Tracker.addRoots_all {P : (Fin n → K) → Prop} {s : Tracker n K} (hs : s.AllRoots P) {zs : List (Fin n → K)} (hz : ∀ x ∈ zs, P x)
    (a b : Fin n → K) (m : String) : (s.addRoots zs a b m).AllRoots P ∧ (s.addRoots zs a b m).potentialRoots = s.potentialRoots := by
  unfold Tracker.addRoots
  have key : ∀ (l : List (Fin n → K)) (s : Tracker n K), s.AllRoots P → (∀ x ∈ l, P x) → (l.foldl (Tracker.addOne a b m) s).AllRoots P ∧
      (l.foldl (Tracker.addOne a b m) s).potentialRoots = s.potentialRoots := by
    intro l
    induction l with
    | nil => intro s hs _; exact ⟨hs, rfl⟩
    | cons z l ih =>
      intro s hs hl
      have hz := hl z (by simp)
      have h1 : (Tracker.addOne a b m s z).AllRoots P ∧ (Tracker.addOne a b m s z).potentialRoots = s.potentialRoots := by
        unfold Tracker.addOne
        by_cases h1 : rootInBox z a b
        · rw [if_pos h1]
          refine ⟨⟨fun x hx => ?_, hs.2⟩, rfl⟩
          rcases List.mem_append.1 hx with h | h
          · exact hs.1 x h
          · rw [List.mem_singleton.1 h]; exact hz
        · rw [if_neg h1]
          by_cases h2 : (s.intervals.any fun I => rootInBox z I.1 I.2) = true
          · rw [if_pos h2]; exact ⟨hs, rfl⟩
          · rw [if_neg h2]
            refine ⟨⟨hs.1, fun d hd => ?_⟩, rfl⟩
            rcases List.mem_append.1 hd with h | h
            · exact hs.2 d h
            · rw [List.mem_singleton.1 h]; exact hz
      have := ih _ h1.1 fun x hx => hl x (by simp [hx])
      exact ⟨this.1, this.2.trans h1.2⟩
  have := key zs s hs hz
  exact ⟨⟨this.1.1, fun d hd => this.1.2 d (List.mem_filter.1 hd).1⟩, this.2⟩

/-- The invariant for the positions. -/
def Located (W : Box n K) (st : NDState n K) : Prop :=
  st.tracker.AllRoots (fun x => ∀ i, W.lo i - 1 / 10 ^ 9 ≤ x i ∧ x i ≤ W.hi i + 1 / 10 ^ 9) ∧
  (∀ p ∈ st.tracker.potentialRoots, W.Mem p) ∧ ∀ r ∈ st.data.results, r.1 ∈ leafNames → r.2.Within (buffered W)

theorem track_results {D : Data n K} {name : String} {B : Box n K} {r : String × Box n K} (h : r ∈ (D.track name B).results) :
    r ∈ D.results ∨ r = (name, B) := by
  simp only [Data.track] at h
  split_ifs at h
  · exact .inl h
  · simpa using h

theorem located_record {W og : Box n K} {st : NDState n K} (h : Located W st) (ho : og.Ordered) (hw : og.Within W) (name : String)
    (zeros : List (Fin n → K × K)) (tol : K) : Located W (record st name zeros tol og (buffered og)) := by
  obtain ⟨h1, h2, h3⟩ := h
  have hz : ∀ x ∈ zerosInInterval ((goodZerosND zeros tol tol).map (transformPoint (buffered og))) og,
      ∀ i, W.lo i - 1 / 10 ^ 9 ≤ x i ∧ x i ≤ W.hi i + 1 / 10 ^ 9 := by
    intro x hx i
    have := (mem_zerosInInterval.1 hx).2 i
    have := hw i
    constructor <;> linarith
  have := Tracker.addRoots_all h1 hz (buffered og).lo (buffered og).hi name
  refine ⟨this.1, fun p hp => ?_, fun r hr hn => ?_⟩
  · simp only [record] at hp
    rw [this.2] at hp
    exact h2 p hp
  · simp only [record] at hr
    rcases track_results hr with hr | rfl
    · exact h3 r hr hn
    · exact buffered_mono ho hw

theorem located_data {W : Box n K} {st st1 : NDState n K} {D : Data n K} (h : Located W st) (ht : st1.tracker = st.tracker)
    (hD : st.data.Grows subNames D) (hd : st1.data = D) : Located W st1 := by
  refine ⟨ht ▸ h.1, ht ▸ h.2.1, fun r hr hn => ?_⟩
  rw [hd] at hr
  rcases hD.new r hr with h1 | h1
  · exact h.2.2 r h1 hn
  · simp only [leafNames, subNames, List.mem_cons, List.not_mem_nil, or_false] at hn h1
    rcases h1 with h1 | h1 <;> rw [h1] at hn <;> simp at hn

theorem runs_located {lib : NDLib (n + 1) K} {T : NDTols K} {targetDeg : ℕ} {trust : Bool} {k lev : ℕ}
    {fs : List ((Fin (n + 1) → K) → K)} {deg : ℕ} {L : List (Box (n + 1) K)} {st st' : NDState (n + 1) K}
    (h : Runs lib T targetDeg trust k lev fs deg L st st') (W : Box (n + 1) K) (ho : ∀ B ∈ L, B.Ordered)
    (hW : ∀ B ∈ L, if deg = 2 then B.Within W else (buffered B).Within W) (hst : Located W st) : Located W st' := by
  have hin : ∀ {deg : ℕ} {B : Box (n + 1) K}, B.Ordered → (if deg = 2 then B.Within W else (buffered B).Within W) → B.Within W := by
    intro deg B hB h
    split_ifs at h
    · exact h
    · exact within_trans (within_buffered hB) h
  have hsub : ∀ {deg : ℕ} {B C : Box (n + 1) K}, C.Ordered → C.Within B → (if deg = 2 then B.Within W else (buffered B).Within W) →
      if deg = 2 then C.Within W else (buffered C).Within W := by
    intro deg B C hC hCB h
    split_ifs at h ⊢
    · exact within_trans hCB h
    · exact within_trans (buffered_mono hC hCB) h
  induction h with
  | nil => exact hst
  | @deep lev fs deg og rest st st' _ ih =>
    have hog := ho og (by simp)
    have hw := hin hog (hW og (by simp))
    refine ih (fun B hB => ho B (by simp [hB])) (fun B hB => hW B (by simp [hB])) ⟨hst.1, fun p hp => ?_, fun r hr hn => ?_⟩
    · rcases List.mem_append.1 hp with h | h
      · exact hst.2.1 p h
      · rw [List.mem_singleton.1 h]
        intro i
        have := hw i
        have := hog i
        constructor <;> linarith
    · rcases track_results hr with hr | rfl
      · exact hst.2.2 r hr hn
      · exact within_trans hw (within_buffered fun i => ((hw i).1.trans (hog i)).trans (hw i).2)
  | @bad k lev fs deg og rest st st' u fs2 l L D st2 _ _ hg _ _ ih1 ih2 =>
    have hs := getSub_spec (ho og (by simp)) hg
    refine ih2 (fun B hB => ho B (by simp [hB])) (fun B hB => hW B (by simp [hB]))
      (ih1 (fun B hB => (hs.1 B hB).1) (fun B hB => hsub (hs.1 B hB).1 (hs.1 B hB).2 (hW og (by simp))) ?_)
    exact located_data hst (evalTols_data lib T lev deg fs og u st).2 hs.2 rfl
  | @split k lev fs deg og rest st st' u l L D st2 _ hg _ _ ih1 ih2 =>
    have hs := getSub_spec (ho og (by simp)) hg
    refine ih2 (fun B hB => ho B (by simp [hB])) (fun B hB => hW B (by simp [hB]))
      (ih1 (fun B hB => (hs.1 B hB).1) (fun B hB => hsub (hs.1 B hB).1 (hs.1 B hB).2 (hW og (by simp))) ?_)
    exact located_data hst (evalTols_data lib T lev deg fs og u st).2 hs.2 rfl
  | @retry k lev fs deg og rest st st' u st2 hdeg _ _ ih1 ih2 =>
    have hog := ho og (by simp)
    have hw := hW og (by simp)
    rw [if_neg hdeg] at hw
    refine ih2 (fun B hB => ho B (by simp [hB])) (fun B hB => hW B (by simp [hB])) (ih1 ?_ ?_ ?_)
    · intro B hB; rw [List.mem_singleton.1 hB]; exact buffered_ordered hog
    · intro B hB; rw [List.mem_singleton.1 hB, if_pos rfl]; exact hw
    · exact located_data hst (evalTols_data lib T lev deg fs og u st).2 (.refl _ _) (evalTols_data lib T lev deg fs og u st).1
  | @base k lev fs og rest st st' u l zero tol _ _ _ _ _ _ ih =>
    have hog := ho og (by simp)
    refine ih (fun B hB => ho B (by simp [hB])) (fun B hB => hW B (by simp [hB])) (located_record ?_ hog (hin hog (hW og (by simp))) _ _ _)
    exact located_data hst (evalTols_data lib T lev 2 fs og u st).2 (.refl _ _) (evalTols_data lib T lev 2 fs og u st).1
  | @macaulay k lev fs deg og rest st st' u l zeros _ _ _ _ _ _ _ ih =>
    have hog := ho og (by simp)
    refine ih (fun B hB => ho B (by simp [hB])) (fun B hB => hW B (by simp [hB])) (located_record ?_ hog (hin hog (hW og (by simp))) _ _ _)
    exact located_data hst (evalTols_data lib T lev deg fs og u st).2 (.refl _ _) (evalTols_data lib T lev deg fs og u st).1

/-- **C83** (location).  A call with an empty tracker reports only roots that are, in each coordinate, at most `1e-9` plus the buffer of the box
outside of the box; the potential roots, and the tracked intervals without exclusion, lie in the box up to buffers. -/
theorem C83_location (lib : NDLib (n + 1) K) (T : NDTols K) (targetDeg : ℕ) (trust : Bool) (left level : ℕ)
    (fs : List ((Fin (n + 1) → K) → K)) (a b : Fin (n + 1) → K) (hab : ∀ i, a i ≤ b i) (deg : ℕ) (gd : List (Option ℕ))
    (hgd : gd.length = fs.length) (u : Bool) (st st' : NDState (n + 1) K) (hst : st.tracker = {}) (hres : st.data.results = [])
    (h : solveND lib T targetDeg trust left level fs ⟨a, b⟩ deg gd u st = .ok st') :
    (∀ x ∈ st'.tracker.keepDuplicates.roots, ∀ i,
      a i - ((b i - a i) * (5 / 10 ^ 10) + 1 / 10 ^ 9) ≤ x i ∧ x i ≤ b i + ((b i - a i) * (5 / 10 ^ 10) + 1 / 10 ^ 9)) ∧
    (∀ x ∈ st'.tracker.potentialRoots, ∀ i, a i - (b i - a i) * (5 / 10 ^ 10) ≤ x i ∧ x i ≤ b i + (b i - a i) * (5 / 10 ^ 10)) ∧
    ∀ r ∈ st'.data.results, r.1 ∈ leafNames → ∀ i,
      a i - (b i - a i) * (11 / 10 ^ 10) ≤ r.2.lo i ∧ r.2.hi i ≤ b i + (b i - a i) * (11 / 10 ^ 10) := by
  have hr := solveND_runs lib T targetDeg trust left level fs ⟨a, b⟩ deg gd u st st' trivial hgd h [] st' .nil
  obtain ⟨⟨h1, h2⟩, h3, h4⟩ := runs_located hr (buffered ⟨a, b⟩) (fun B hB => by rw [List.mem_singleton.1 hB]; exact hab)
    (fun B hB => by
      rw [List.mem_singleton.1 hB]
      split_ifs
      · exact within_buffered hab
      · exact fun i => ⟨le_rfl, le_rfl⟩)
    ⟨⟨by simp [hst], by simp [hst]⟩, by simp [hst], by simp [hres]⟩
  refine ⟨fun x hx i => ?_, h3, fun r hr hn i => ?_⟩
  · rw [Tracker.keep_roots, List.mem_append] at hx
    have : ∀ i, (buffered ⟨a, b⟩).lo i - 1 / 10 ^ 9 ≤ x i ∧ x i ≤ (buffered ⟨a, b⟩).hi i + 1 / 10 ^ 9 := by
      rcases hx with hx | hx
      · exact h1 x hx
      · obtain ⟨d, hd, rfl⟩ := List.mem_map.1 hx
        exact h2 d hd
    have := this i
    simp only [buffered] at this
    constructor <;> linarith
  · have h5 := h4 r hr hn i
    have := hab i
    simp only [buffered] at h5
    constructor <;> linarith

/-! ### Volume -/

theorem runs_area {lib : NDLib (n + 1) K} {T : NDTols K} {targetDeg : ℕ} {trust : Bool} {k lev : ℕ}
    {fs : List ((Fin (n + 1) → K) → K)} {deg : ℕ} {L : List (Box (n + 1) K)} {st st' : NDState (n + 1) K}
    (h : Runs lib T targetDeg trust k lev fs deg L st st') (ho : ∀ B ∈ L, B.Ordered) :
    (L.map volume).sum ≤ st'.data.current_area - st.data.current_area ∧
    st'.data.current_area - st.data.current_area ≤
      (if deg = 2 then (1 + 1 / 10 ^ 9) ^ (n + 1) else (1 + 1 / 10 ^ 9) ^ (2 * (n + 1))) * (L.map volume).sum := by
  have hq : (1 : K) ≤ (1 + 1 / 10 ^ 9) ^ (n + 1) := one_le_pow₀ (by norm_num)
  have hq2 : (1 + 1 / 10 ^ 9 : K) ^ (2 * (n + 1)) = (1 + 1 / 10 ^ 9) ^ (n + 1) * (1 + 1 / 10 ^ 9) ^ (n + 1) := by
    rw [two_mul, pow_add]
  have hqq : (1 : K) ≤ (1 + 1 / 10 ^ 9) ^ (2 * (n + 1)) := one_le_pow₀ (by norm_num)
  have hbig : (1 + 1 / 10 ^ 9 : K) ^ (n + 1) ≤ (1 + 1 / 10 ^ 9) ^ (2 * (n + 1)) := by rw [hq2]; nlinarith
  have hc : ∀ deg : ℕ, (1 + 1 / 10 ^ 9 : K) ^ (n + 1) ≤ (if deg = 2 then (1 + 1 / 10 ^ 9) ^ (n + 1) else (1 + 1 / 10 ^ 9) ^ (2 * (n + 1))) := by
    intro deg; split_ifs
    · exact le_rfl
    · exact hbig
  have hv : ∀ {B : Box (n + 1) K}, B.Ordered → 0 ≤ volume B := fun hB => area_nonneg hB
  have htr : ∀ (D : Data (n + 1) K) (m : String) (B : Box (n + 1) K), (D.track m B).current_area = D.current_area + volume B := fun _ _ _ => rfl
  have hbuf : ∀ B : Box (n + 1) K, volume (buffered B) = (1 + 1 / 10 ^ 9) ^ (n + 1) * volume B := area_buffered
  have hsplit : ∀ {og : Box (n + 1) K} {st : NDState (n + 1) K} {approx : List (Tensor (n + 1) K × K)} {checks : Bool}
      {L : List (Box (n + 1) K)} {D : Data (n + 1) K}, og.Ordered →
      getSubintervals lib.solve lib.rank st.data og.lo og.hi approx checks = .ok (L, D) → ∀ {c : K}, 1 ≤ c → ∀ {x : K},
      (L.map volume).sum ≤ x - D.current_area → x - D.current_area ≤ c * (L.map volume).sum →
      volume og ≤ x - st.data.current_area ∧ x - st.data.current_area ≤ c * volume og := by
    intro og st approx checks L D hog hg c hc x h1 h2
    have ha := C53_area lib.solve lib.rank st.data og.lo og.hi approx checks L D hg
    have hm := (getSub_spec hog hg).2.area
    have e : volume (⟨og.lo, og.hi⟩ : Box (n + 1) K) = volume og := rfl
    rw [e] at ha
    constructor
    · linarith
    · have h3 := mul_le_mul_of_nonneg_right hc (sub_nonneg.2 hm)
      rw [← ha, mul_add]
      linarith
  induction h with
  | nil => simp
  | @deep lev fs deg og rest st st' _ ih =>
    have ih := ih fun B hB => ho B (by simp [hB])
    have h0 := hv (ho og (by simp))
    simp only [tooDeep, htr] at ih
    rw [List.map_cons, List.sum_cons, mul_add]
    have := hc deg
    refine ⟨by linarith [ih.1], ?_⟩
    have : volume og ≤ (if deg = 2 then (1 + 1 / 10 ^ 9) ^ (n + 1) else (1 + 1 / 10 ^ 9) ^ (2 * (n + 1))) * volume og :=
      le_mul_of_one_le_left h0 (hq.trans this)
    linarith [ih.2]
  | @bad k lev fs deg og rest st st' u fs2 l L D st2 _ _ hg _ _ ih1 ih2 =>
    have hs := getSub_spec (ho og (by simp)) hg
    have h1 := ih1 fun B hB => (hs.1 B hB).1
    have h2 := ih2 fun B hB => ho B (by simp [hB])
    have h3 := hsplit (ho og (by simp)) hg (hq.trans (hc deg)) h1.1 h1.2
    rw [List.map_cons, List.sum_cons, mul_add]
    exact ⟨by linarith [h2.1], by linarith [h2.2]⟩
  | @split k lev fs deg og rest st st' u l L D st2 _ hg _ _ ih1 ih2 =>
    have hs := getSub_spec (ho og (by simp)) hg
    have h1 := ih1 fun B hB => (hs.1 B hB).1
    have h2 := ih2 fun B hB => ho B (by simp [hB])
    have h3 := hsplit (ho og (by simp)) hg (hq.trans (hc deg)) h1.1 h1.2
    rw [List.map_cons, List.sum_cons, mul_add]
    exact ⟨by linarith [h2.1], by linarith [h2.2]⟩
  | @retry k lev fs deg og rest st st' u st2 hdeg _ _ ih1 ih2 =>
    have h1 := ih1 fun B hB => by rw [List.mem_singleton.1 hB]; exact buffered_ordered (ho og (by simp))
    have h2 := ih2 fun B hB => ho B (by simp [hB])
    have h0 := hv (ho og (by simp))
    simp only [List.map_cons, List.map_nil, List.sum_cons, List.sum_nil, add_zero, if_true, hbuf,
      (evalTols_data lib T lev deg fs og u st).1] at h1
    simp only [if_neg hdeg] at h2 ⊢
    rw [List.map_cons, List.sum_cons, mul_add]
    refine ⟨by nlinarith [h2.1, h1.1], ?_⟩
    rw [hq2] at h2 ⊢
    linarith [h2.2, h1.2]
  | @base k lev fs og rest st st' u l zero tol _ _ _ _ _ _ ih =>
    have ih := ih fun B hB => ho B (by simp [hB])
    have h0 := hv (ho og (by simp))
    simp only [record, htr, hbuf, (evalTols_data lib T lev 2 fs og u st).1, if_true] at ih
    rw [List.map_cons, List.sum_cons, if_pos rfl, mul_add]
    exact ⟨by nlinarith [ih.1], by linarith [ih.2]⟩
  | @macaulay k lev fs deg og rest st st' u l zeros _ _ _ _ _ _ _ ih =>
    have ih := ih fun B hB => ho B (by simp [hB])
    have h0 := hv (ho og (by simp))
    simp only [record, htr, hbuf, (evalTols_data lib T lev deg fs og u st).1] at ih
    rw [List.map_cons, List.sum_cons, mul_add]
    have := mul_le_mul_of_nonneg_right (hc deg) h0
    exact ⟨by nlinarith [ih.1], by linarith [ih.2]⟩

/-- **C83** (accounting).  The whole volume of the box is accounted for: `current_area` grows by at least the volume and, because the buffered
boxes are counted, by at most a factor `(1 + 1e-9)^(2 dim)` of it - whatever the approximations, checks and solvers answer. -/
theorem C83_area (lib : NDLib (n + 1) K) (T : NDTols K) (targetDeg : ℕ) (trust : Bool) (left level : ℕ)
    (fs : List ((Fin (n + 1) → K) → K)) (a b : Fin (n + 1) → K) (hab : ∀ i, a i ≤ b i) (deg : ℕ) (gd : List (Option ℕ))
    (hgd : gd.length = fs.length) (u : Bool) (st st' : NDState (n + 1) K)
    (h : solveND lib T targetDeg trust left level fs ⟨a, b⟩ deg gd u st = .ok st') :
    ∏ i, (b i - a i) ≤ st'.data.current_area - st.data.current_area ∧
    st'.data.current_area - st.data.current_area ≤ (1 + 1 / 10 ^ 9) ^ (2 * (n + 1)) * ∏ i, (b i - a i) := by
  have hr := solveND_runs lib T targetDeg trust left level fs ⟨a, b⟩ deg gd u st st' trivial hgd h [] st' .nil
  have ha := runs_area hr fun B hB => by rw [List.mem_singleton.1 hB]; exact hab
  simp only [List.map_cons, List.map_nil, List.sum_cons, List.sum_nil, add_zero] at ha
  refine ⟨ha.1, ha.2.trans ?_⟩
  have h0 : 0 ≤ ∏ i, (b i - a i) := prod_nonneg fun i _ => sub_nonneg.2 (hab i)
  refine mul_le_mul_of_nonneg_right ?_ h0
  split_ifs
  · exact pow_le_pow_right₀ (by norm_num) (by omega)
  · exact le_rfl

/-! ### Cover -/

/-- Spec: what `trim_coeffs` needs: at least two entries along each axis, and the coefficient of the monomial of the highest total degree is zero
if there are others that are taken away first. -/
def Trimmable (M : Tensor (n + 1) K) : Prop :=
  (∀ j, 1 < M.shape j) ∧ (M.coef (fun i => M.shape i - 1) = 0 ∨ ∑ i, (M.shape i - 1) ≤ M.shape 0)

/-- Spec: the approximations of `f` are within their errors on the boxes they were made for, and can be trimmed. -/
def Faithful (lib : NDLib (n + 1) K) (f : (Fin (n + 1) → K) → K) : Prop :=
  ∀ (B : Box (n + 1) K) (deg : ℕ) (tol : K) (g : Option ℕ) (M : Tensor (n + 1) K) (norm err : K), B.Ordered →
    lib.approx f B deg tol g = (some M, norm, err) →
    Trimmable M ∧ ∀ t, InCube t → |f (toBox B.lo B.hi t) - M.eval t| ≤ err

/-- Spec: the approximation on the box with buffer, read in the coordinates of the box without buffer, is strictly within its error. -/
def AccurateInside (lib : NDLib (n + 1) K) (f : (Fin (n + 1) → K) → K) : Prop :=
  ∀ (B : Box (n + 1) K) (deg : ℕ) (tol : K) (g : Option ℕ) (M : Tensor (n + 1) K) (norm err : K), B.Ordered →
    lib.approx f (buffered B) deg tol g = (some M, norm, err) →
    Trimmable M ∧ ∀ t, InCube t → |f (toBox B.lo B.hi t) - M.eval t| < err

theorem exists_toBox {B : Box n K} {x : Fin n → K} (hx : B.Mem x) : ∃ t, InCube t ∧ toBox B.lo B.hi t = x := by
  refine ⟨fun i => if B.lo i = B.hi i then 0 else (2 * x i - (B.lo i + B.hi i)) / (B.hi i - B.lo i), fun i => ?_, funext fun i => ?_⟩
  · have h := hx i
    by_cases he : B.lo i = B.hi i
    · simp [he]
    · have hlt : B.lo i < B.hi i := lt_of_le_of_ne (h.1.trans h.2) he
      simp only [if_neg he]
      rw [abs_le, le_div_iff₀ (sub_pos.2 hlt), div_le_iff₀ (sub_pos.2 hlt)]
      constructor <;> linarith
  · have h := hx i
    by_cases he : B.lo i = B.hi i
    · simp only [toBox, if_pos he]
      have : x i = B.lo i := le_antisymm (he ▸ h.2) h.1
      rw [this, ← he]; ring
    · have : B.hi i - B.lo i ≠ 0 := sub_ne_zero.2 (Ne.symm he)
      simp only [toBox, if_neg he]
      field_simp
      ring

theorem trimLoop_shape (T : K) : ∀ (d : ℕ) (M : Tensor n K) (err : K), (∀ j, 1 < M.shape j) → ∀ j, 1 < (trimLoop T d M err).1.shape j
  | 0, M, err => fun h => h
  | 1, M, err => fun h => h
  | d + 2, M, err => fun h j => by
    have hj := h j
    unfold trimLoop
    simp only []
    split_ifs with h1 h2 h3
    · simp only [truncate]; omega
    · exact hj
    · simp only [truncate, zeroAt]; omega
    · exact trimLoop_shape T (d + 1) (zeroAt M _) _ (fun j => h j) j

theorem trimOne_shape (T : K) (M : Tensor n K) (err : K) (h : ∀ j, 1 < M.shape j) : ∀ j, 1 < (trimOne T M err).1.shape j := by
  unfold trimOne
  simp only []
  split_ifs
  · exact h
  · exact trimLoop_shape T _ _ _ fun j => h j

/-- Trimming counts what it takes away. -/
theorem trimOne_close (T : K) {M : Tensor (n + 1) K} (hM : Trimmable M) (err : K) {t : Fin (n + 1) → K} (ht : InCube t) :
    |M.eval t - (trimOne T M err).1.eval t| ≤ (trimOne T M err).2.1 - err := by
  have hs := trimOne_spec (Nat.succ_le_succ (Nat.zero_le n)) T M err (fun i => by have := hM.1 i; omega) hM.2
  rcases hb : (trimOne T M err).2.2 with _ | _
  · obtain ⟨h1, h2, -⟩ := hs.2 hb
    rw [h1, sub_self, abs_zero]
    linarith
  · exact (hs.1 hb).bound t ht

theorem le_floorErr (trust : Bool) (e : K) : e ≤ floorErr trust e := by
  unfold floorErr
  split_ifs
  · exact le_rfl
  · exact le_max_left _ _

theorem approxd_approximates {lib : NDLib (n + 1) K} {trust : Bool} {B : Box (n + 1) K} (hB : B.Ordered) {deg : ℕ}
    {fs : List ((Fin (n + 1) → K) → K)} (hacc : ∀ f ∈ fs, AccurateInside lib f) {l : List (Tensor (n + 1) K × K × K)}
    (h : Approxd lib (buffered B) deg fs l) (m : Tensor (n + 1) K × K × K → Tensor (n + 1) K × K)
    (hm : ∀ p, Trimmable p.1 → (∀ j, 1 < (m p).1.shape j) ∧ ∀ t, InCube t → |p.1.eval t - (m p).1.eval t| ≤ (m p).2 - p.2.2) :
    Approximates (fs.map fun f t => f (toBox B.lo B.hi t)) (l.map fun p => ((m p).1, floorErr trust (m p).2)) ∧
    ∀ p ∈ l.map (fun p => ((m p).1, floorErr trust (m p).2)), p.1.Nonempty := by
  unfold Approxd at h
  unfold Approximates
  induction h with
  | nil => simp
  | @cons f p fs l hfp _ ih =>
    obtain ⟨tol, g, ha⟩ := hfp
    have h1 := hacc f (by simp) B deg tol g p.1 p.2.1 p.2.2 hB ha
    have h2 := ih fun f hf => hacc f (by simp [hf])
    have h3 := hm p h1.1
    refine ⟨.cons (fun y hy => ?_) h2.1, ?_⟩
    · have e1 := h1.2 y hy
      have e2 := h3.2 y hy
      have e3 := abs_sub_le (f (toBox B.lo B.hi y)) (p.1.eval y) ((m p).1.eval y)
      have e4 := le_floorErr trust (m p).2
      show |f (toBox B.lo B.hi y) - (m p).1.eval y| < floorErr trust (m p).2
      linarith
    · simp only [List.map_cons, List.mem_cons, forall_eq_or_imp]
      exact ⟨fun i => by have := h3.1 i; show 0 < (m p).1.shape i; omega, h2.2⟩

/-- All names. -/
abbrev allNames : List String := ["quadratic_check", "getBoundingInterval", "Base Case", "Macaulay", "Too Deep"]

theorem Data.Grows.weaken {D D' : Data n K} (h : D.Grows subNames D') : D.Grows allNames D' :=
  ⟨h.polishing, h.methods, h.old, fun r hr => (h.new r hr).imp id fun h => by
    simp only [subNames, allNames, List.mem_cons, List.not_mem_nil, or_false] at h ⊢; tauto, h.area, h.frozen⟩

theorem runs_grows {lib : NDLib (n + 1) K} {T : NDTols K} {targetDeg : ℕ} {trust : Bool} {k lev : ℕ}
    {fs : List ((Fin (n + 1) → K) → K)} {deg : ℕ} {L : List (Box (n + 1) K)} {st st' : NDState (n + 1) K}
    (h : Runs lib T targetDeg trust k lev fs deg L st st') (ho : ∀ B ∈ L, B.Ordered) : st.data.Grows allNames st'.data := by
  induction h with
  | nil => exact .refl _ _
  | @deep lev fs deg og rest st st' _ ih =>
    exact (st.data.track_grows (by simp) (ho og (by simp))).trans (ih fun B hB => ho B (by simp [hB]))
  | @bad k lev fs deg og rest st st' u fs2 l L D st2 _ _ hg _ _ ih1 ih2 =>
    have hs := getSub_spec (ho og (by simp)) hg
    exact hs.2.weaken.trans ((ih1 fun B hB => (hs.1 B hB).1).trans (ih2 fun B hB => ho B (by simp [hB])))
  | @split k lev fs deg og rest st st' u l L D st2 _ hg _ _ ih1 ih2 =>
    have hs := getSub_spec (ho og (by simp)) hg
    exact hs.2.weaken.trans ((ih1 fun B hB => (hs.1 B hB).1).trans (ih2 fun B hB => ho B (by simp [hB])))
  | @retry k lev fs deg og rest st st' u st2 hdeg _ _ ih1 ih2 =>
    have h1 := ih1 fun B hB => by rw [List.mem_singleton.1 hB]; exact buffered_ordered (ho og (by simp))
    rw [(evalTols_data lib T lev deg fs og u st).1] at h1
    exact h1.trans (ih2 fun B hB => ho B (by simp [hB]))
  | @base k lev fs og rest st st' u l zero tol _ _ _ _ _ _ ih =>
    have h1 := (evalTols lib T lev 2 fs og u st).data.track_grows (names := allNames) (name := "Base Case") (by simp)
      (buffered_ordered (ho og (by simp)))
    have h2 := h1.trans (ih fun B hB => ho B (by simp [hB]))
    rwa [(evalTols_data lib T lev 2 fs og u st).1] at h2
  | @macaulay k lev fs deg og rest st st' u l zeros _ _ _ _ _ _ _ ih =>
    have h1 := (evalTols lib T lev deg fs og u st).data.track_grows (names := allNames) (name := "Macaulay") (by simp)
      (buffered_ordered (ho og (by simp)))
    have h2 := h1.trans (ih fun B hB => ho B (by simp [hB]))
    rwa [(evalTols_data lib T lev deg fs og u st).1] at h2

theorem mem_track {D : Data n K} (hp : D.polishing = false) (name : String) (B : Box n K) : (name, B) ∈ (D.track name B).results := by
  simp [Data.track, hp]

theorem runs_cover {lib : NDLib (n + 1) K} (hS : lib.solve.Exact) (hla : ∀ T : Finset (Fin (n + 1)), T.Nonempty → lib.rank.ExactOn T)
    (hn : n + 1 ≤ 3) {T : NDTols K} {targetDeg : ℕ} {trust : Bool} {k lev : ℕ}
    {fs : List ((Fin (n + 1) → K) → K)} {deg : ℕ} {L : List (Box (n + 1) K)} {st st' : NDState (n + 1) K}
    (h : Runs lib T targetDeg trust k lev fs deg L st st') (ho : ∀ B ∈ L, B.Ordered) (hp : st.data.polishing = false)
    (hacc : ∀ f ∈ fs, AccurateInside lib f) (x : Fin (n + 1) → K) (hx : ∀ f ∈ fs, f x = 0) (hL : ∃ B ∈ L, B.Mem x) :
    ∃ r ∈ st'.data.results, r.1 ∈ leafNames ∧ r.2.Mem x := by
  induction h with
  | nil => simp at hL
  | @deep lev fs deg og rest st st' hrest ih =>
    have hg := runs_grows hrest fun B hB => ho B (by simp [hB])
    obtain ⟨B, hB, hBx⟩ := hL
    rcases List.mem_cons.1 hB with rfl | hB
    · exact ⟨_, hg.old _ (mem_track hp "Too Deep" B), by simp [leafNames], hBx⟩
    · exact ih (fun B hB => ho B (by simp [hB])) hp hacc hx ⟨B, hB, hBx⟩
  | @bad k lev fs deg og rest st st' u fs2 l L D st2 hperm hl hg hr1 hr2 ih1 ih2 =>
    have hog := ho og (by simp)
    have hs := getSub_spec hog hg
    have hg1 := runs_grows hr1 fun B hB => (hs.1 B hB).1
    have hg2 := runs_grows hr2 fun B hB => ho B (by simp [hB])
    have hpD : D.polishing = false := hs.2.polishing.trans hp
    obtain ⟨B, hB, hBx⟩ := hL
    rcases List.mem_cons.1 hB with rfl | hB
    · obtain ⟨t, ht, htx⟩ := exists_toBox hBx
      have ha := approxd_approximates hog (fun f hf => hacc f (List.mem_of_mem_take hf)) hl (fun p => (p.1, p.2.2))
        (fun p hp => ⟨hp.1, fun t _ => by simp⟩) (trust := trust)
      have hc := C53_cover_partial hS lib.rank hla st.data B.lo B.hi hog _ ha.2 false (.inr rfl) L D hg _ ha.1 t
        ⟨ht, by
          intro g hg
          obtain ⟨f, hf, rfl⟩ := List.mem_map.1 hg
          simp only [htx]
          exact hx f (List.mem_of_mem_take hf)⟩
      rw [htx] at hc
      obtain ⟨r, hr, hr'⟩ := ih1 (fun B hB => (hs.1 B hB).1) hpD (fun f hf => hacc f (hperm.mem_iff.1 hf))
        (fun f hf => hx f (hperm.mem_iff.1 hf)) hc
      exact ⟨r, hg2.old r hr, hr'⟩
    · exact ih2 (fun B hB => ho B (by simp [hB])) (hg1.polishing.trans hpD) hacc hx ⟨B, hB, hBx⟩
  | @split k lev fs deg og rest st st' u l L D st2 hl hg hr1 hr2 ih1 ih2 =>
    have hog := ho og (by simp)
    have hs := getSub_spec hog hg
    have hg1 := runs_grows hr1 fun B hB => (hs.1 B hB).1
    have hg2 := runs_grows hr2 fun B hB => ho B (by simp [hB])
    have hpD : D.polishing = false := hs.2.polishing.trans hp
    obtain ⟨B, hB, hBx⟩ := hL
    rcases List.mem_cons.1 hB with rfl | hB
    · obtain ⟨t, ht, htx⟩ := exists_toBox hBx
      have ha := approxd_approximates (trust := trust) hog hacc hl
        (fun p => ((trimOne ((evalTols lib T lev deg fs B u st).absTol + T.relTol * p.2.1) p.1 p.2.2).1,
          (trimOne ((evalTols lib T lev deg fs B u st).absTol + T.relTol * p.2.1) p.1 p.2.2).2.1))
        fun p hp => ⟨trimOne_shape _ _ _ hp.1, fun t ht => trimOne_close _ hp _ ht⟩
      have e : ((trimCoeffs (evalTols lib T lev deg fs B u st).absTol T.relTol l).1.map fun p => (p.1, floorErr trust p.2)) = l.map fun p =>
          ((trimOne ((evalTols lib T lev deg fs B u st).absTol + T.relTol * p.2.1) p.1 p.2.2).1,
            floorErr trust (trimOne ((evalTols lib T lev deg fs B u st).absTol + T.relTol * p.2.1) p.1 p.2.2).2.1) := by
        simp only [trimCoeffs, List.map_map]
        rfl
      rw [e] at hg
      have hc := C53_cover_partial hS lib.rank hla st.data B.lo B.hi hog _ ha.2 true (.inl hn) L D hg _ ha.1 t
        ⟨ht, by
          intro g hg
          obtain ⟨f, hf, rfl⟩ := List.mem_map.1 hg
          simp only [htx]
          exact hx f hf⟩
      rw [htx] at hc
      obtain ⟨r, hr, hr'⟩ := ih1 (fun B hB => (hs.1 B hB).1) hpD hacc hx hc
      exact ⟨r, hg2.old r hr, hr'⟩
    · exact ih2 (fun B hB => ho B (by simp [hB])) (hg1.polishing.trans hpD) hacc hx ⟨B, hB, hBx⟩
  | @retry k lev fs deg og rest st st' u st2 hdeg hr1 hr2 ih1 ih2 =>
    have hog := ho og (by simp)
    have hev := (evalTols_data lib T lev deg fs og u st).1
    have ho1 : ∀ B ∈ [buffered og], B.Ordered := fun B hB => by rw [List.mem_singleton.1 hB]; exact buffered_ordered hog
    have hg1 := runs_grows hr1 ho1
    have hg2 := runs_grows hr2 fun B hB => ho B (by simp [hB])
    obtain ⟨B, hB, hBx⟩ := hL
    rcases List.mem_cons.1 hB with rfl | hB
    · obtain ⟨r, hr, hr'⟩ := ih1 ho1 (by rw [hev]; exact hp) hacc hx ⟨_, by simp, within_mem (within_buffered hog) hBx⟩
      exact ⟨r, hg2.old r hr, hr'⟩
    · exact ih2 (fun B hB => ho B (by simp [hB])) (by rw [hg1.polishing, hev]; exact hp) hacc hx ⟨B, hB, hBx⟩
  | @base k lev fs og rest st st' u l zero tol _ _ _ _ _ hr ih =>
    have hog := ho og (by simp)
    have hev := (evalTols_data lib T lev 2 fs og u st).1
    have hg := runs_grows hr fun B hB => ho B (by simp [hB])
    obtain ⟨B, hB, hBx⟩ := hL
    rcases List.mem_cons.1 hB with rfl | hB
    · exact ⟨_, hg.old _ (mem_track (by rw [hev]; exact hp) "Base Case" (buffered B)), by simp [leafNames], within_mem (within_buffered hog) hBx⟩
    · exact ih (fun B hB => ho B (by simp [hB])) (by simp only [record, Data.track]; rw [hev]; exact hp) hacc hx ⟨B, hB, hBx⟩
  | @macaulay k lev fs deg og rest st st' u l zeros _ _ _ _ _ _ hr ih =>
    have hog := ho og (by simp)
    have hev := (evalTols_data lib T lev deg fs og u st).1
    have hg := runs_grows hr fun B hB => ho B (by simp [hB])
    obtain ⟨B, hB, hBx⟩ := hL
    rcases List.mem_cons.1 hB with rfl | hB
    · exact ⟨_, hg.old _ (mem_track (by rw [hev]; exact hp) "Macaulay" (buffered B)), by simp [leafNames], within_mem (within_buffered hog) hBx⟩
    · exact ih (fun B hB => ho B (by simp [hB])) (by simp only [record, Data.track]; rw [hev]; exact hp) hacc hx ⟨B, hB, hBx⟩

/-- **C83** (cover, partial).  Every common zero in the box lies in an interval that was tracked as "Base Case", "Macaulay" or "Too Deep" - none is
in a part that was thrown out.

Missing: this is for approximations that are within their errors also when they are read in the coordinates of the box without buffer, as
`get_subintervals` does; for approximations that are right on the box they were made for it is false (`C83_cover_false`).  The coefficient of
highest total degree must be zero (`Trimmable`, because of `C54_trim_false`).  At most three variables, because of `C52_quadND_false`. -/
theorem C83_cover_partial (lib : NDLib (n + 1) K) (hS : lib.solve.Exact) (hla : ∀ T : Finset (Fin (n + 1)), T.Nonempty → lib.rank.ExactOn T)
    (hn : n + 1 ≤ 3) (T : NDTols K) (targetDeg : ℕ) (trust : Bool) (left level : ℕ)
    (fs : List ((Fin (n + 1) → K) → K)) (a b : Fin (n + 1) → K) (deg : ℕ) (gd : List (Option ℕ))
    (hgd : gd.length = fs.length) (u : Bool) (st st' : NDState (n + 1) K) (hp : st.data.polishing = false)
    (hacc : ∀ f ∈ fs, AccurateInside lib f)
    (h : solveND lib T targetDeg trust left level fs ⟨a, b⟩ deg gd u st = .ok st')
    (x : Fin (n + 1) → K) (hx : ∀ f ∈ fs, f x = 0) (hab : ∀ i, a i ≤ x i ∧ x i ≤ b i) :
    ∃ r ∈ st'.data.results, r.1 ∈ leafNames ∧ ∀ i, r.2.lo i ≤ x i ∧ x i ≤ r.2.hi i := by
  have hr := solveND_runs lib T targetDeg trust left level fs ⟨a, b⟩ deg gd u st st' trivial hgd h [] st' .nil
  exact runs_cover hS hla hn hr (fun B hB => by rw [List.mem_singleton.1 hB]; exact fun i => (hab i).1.trans (hab i).2) hp hacc x hx
    ⟨⟨a, b⟩, by simp, hab⟩

end YRoots.Legacy
