import Verif.Lemmas.Btrs2

/-!
# A rejection method around a program with several draws
-/

namespace ICPC.Ideal

open MeasureTheory Spec

/-- The numbers that a program leaves are independent of its result. -/
structure Fresh (prog : ℕ → Draw ℤ) : Prop where
  mono : ∀ f d ω, prog f ω ≠ .error .fuel → prog (f + d) ω = prog f ω
  meas : ∀ f x G, MeasurableSet G → MeasurableSet (endsThen (prog f) x G)
  law : ∀ x G, MeasurableSet G → independentUniforms (⋃ f, endsThen (prog f) x G) = probIn prog {x} * independentUniforms G

open Classical in
/-- Repeat until the result is good. -/
noncomputable def rejectLoop (prog : ℕ → Draw ℤ) (good : Set ℤ) : ℕ → Draw ℤ
  | 0 => lift (.error .fuel)
  | f + 1 => do
    let r ← prog f
    if r ∈ good then return r else rejectLoop prog good f

variable {prog : ℕ → Draw ℤ} {good : Set ℤ}

theorem reject_error {f : ℕ} {ω : ℕ → ℝ} {e : Stop} (h : prog f ω = .error e) : rejectLoop prog good (f + 1) ω = .error e := by
  rw [rejectLoop]
  show (prog f ω >>= fun p => _) = _
  rw [h]
  rfl

open Classical in
theorem reject_good {f : ℕ} {ω ω' : ℕ → ℝ} {r : ℤ} (h : prog f ω = .ok (r, ω')) (hr : r ∈ good) : rejectLoop prog good (f + 1) ω = .ok (r, ω') := by
  rw [rejectLoop]
  show (prog f ω >>= fun p => _) = _
  rw [h]
  show (if r ∈ good then _ else _ : Draw ℤ) ω' = _
  rw [if_pos hr]
  rfl

open Classical in
theorem reject_bad {f : ℕ} {ω ω' : ℕ → ℝ} {r : ℤ} (h : prog f ω = .ok (r, ω')) (hr : r ∉ good) :
    rejectLoop prog good (f + 1) ω = rejectLoop prog good f ω' := by
  rw [rejectLoop]
  show (prog f ω >>= fun p => _) = _
  rw [h]
  show (if r ∈ good then _ else _ : Draw ℤ) ω' = _
  rw [if_neg hr]

theorem reject_mono (hm : ∀ f d ω, prog f ω ≠ .error .fuel → prog (f + d) ω = prog f ω) (f d : ℕ) {ω : ℕ → ℝ}
    (h : rejectLoop prog good f ω ≠ .error .fuel) : rejectLoop prog good (f + d) ω = rejectLoop prog good f ω := by
  induction f generalizing ω with
  | zero => exact (h rfl).elim
  | succ f ih =>
    rw [Nat.add_right_comm]
    cases e : prog f ω with
    | error s =>
      have hs : prog f ω ≠ .error .fuel := fun h' => h (reject_error h')
      rw [reject_error e, reject_error (by rw [hm f d ω hs, e])]
    | ok v =>
      obtain ⟨r, ω'⟩ := v
      have e' : prog (f + d) ω = .ok (r, ω') := by rw [hm f d ω (by rw [e]; simp), e]
      by_cases hr : r ∈ good
      · rw [reject_good e hr, reject_good e' hr]
      · rw [reject_bad e hr] at h ⊢
        rw [reject_bad e' hr, ih h]

/-- Results of `prog` are unique. -/
theorem Fresh.unique (hf : Fresh prog) {f g : ℕ} {ω ω1 ω2 : ℕ → ℝ} {x y : ℤ} (h1 : prog f ω = .ok (x, ω1)) (h2 : prog g ω = .ok (y, ω2)) :
    x = y ∧ ω1 = ω2 := by
  have e1 := hf.mono f g ω (by rw [h1]; simp)
  have e2 := hf.mono g f ω (by rw [h2]; simp)
  rw [add_comm, e2, h1, h2] at e1
  simp only [Except.ok.injEq, Prod.mk.injEq] at e1
  exact ⟨e1.1.symm, e1.2.symm⟩

theorem Fresh.disjoint (hf : Fresh prog) {x y : ℤ} (hxy : x ≠ y) (G G' : Set (ℕ → ℝ)) :
    Disjoint (⋃ f, endsThen (prog f) x G) (⋃ f, endsThen (prog f) y G') := by
  rw [Set.disjoint_left]
  rintro ω h1 h2
  obtain ⟨f, ω1, h1, _⟩ := Set.mem_iUnion.1 h1
  obtain ⟨g, ω2, h2, _⟩ := Set.mem_iUnion.1 h2
  exact hxy (hf.unique h1 h2).1

theorem reject_measurable (hf : Fresh prog) {k : ℤ} {G : Set (ℕ → ℝ)} (hG : MeasurableSet G) (f : ℕ) :
    MeasurableSet (endsThen (rejectLoop prog good f) k G) := by
  induction f with
  | zero =>
    rw [show endsThen (rejectLoop prog good 0) k G = ∅ from Set.eq_empty_of_forall_notMem fun ω => endsThen_error rfl _ _]
    exact .empty
  | succ f ih =>
    have e : endsThen (rejectLoop prog good (f + 1)) k G =
        ({ω | k ∈ good} ∩ endsThen (prog f) k G) ∪ ⋃ j ∈ goodᶜ, endsThen (prog f) j (endsThen (rejectLoop prog good f) k G) := by
      ext ω
      simp only [Set.mem_union, Set.mem_inter_iff, Set.mem_ofPred_eq, Set.mem_iUnion, Set.mem_compl_iff, exists_prop]
      cases e : prog f ω with
      | error s =>
        refine iff_of_false (endsThen_error (reject_error e) _ _) ?_
        rintro (h | ⟨j, _, h⟩)
        · exact endsThen_error e _ _ h.2
        · exact endsThen_error e _ _ h
      | ok v =>
        obtain ⟨r, ω'⟩ := v
        simp only [endsThen_ok e]
        by_cases hr : r ∈ good
        · rw [endsThen_ok (reject_good e hr)]
          constructor
          · rintro ⟨rfl, h⟩
            exact .inl ⟨hr, rfl, h⟩
          · rintro (h | ⟨j, h1, rfl, _⟩)
            · exact h.2
            · exact (h1 hr).elim
        · rw [endsThen_congr (reject_bad e hr)]
          constructor
          · exact fun h => .inr ⟨r, hr, rfl, h⟩
          · rintro (⟨h1, rfl, _⟩ | ⟨j, _, _, h⟩)
            · exact (hr h1).elim
            · exact h
    rw [e]
    exact ((MeasurableSet.const _).inter (hf.meas f k G hG)).union (.biUnion (Set.to_countable _) fun j _ => hf.meas f j _ ih)

theorem reject_equation (hf : Fresh prog) {k : ℤ} (hk : k ∈ good) {G : Set (ℕ → ℝ)} (hG : MeasurableSet G) :
    independentUniforms (⋃ f, endsThen (rejectLoop prog good f) k G) = probIn prog {k} * independentUniforms G +
      (∑' j : (goodᶜ : Set ℤ), probIn prog {(j : ℤ)}) * independentUniforms (⋃ f, endsThen (rejectLoop prog good f) k G) := by
  set X := ⋃ f, endsThen (rejectLoop prog good f) k G with hX
  have hXm : MeasurableSet X := .iUnion fun f => reject_measurable hf hG f
  have e : X = (⋃ f, endsThen (prog f) k G) ∪ ⋃ j : (goodᶜ : Set ℤ), ⋃ f, endsThen (prog f) j X := by
    ext ω
    simp only [Set.mem_union, Set.mem_iUnion]
    constructor
    · intro h
      obtain ⟨f, h⟩ := Set.mem_iUnion.1 h
      cases f with
      | zero => exact (endsThen_error rfl _ _ h).elim
      | succ f =>
        cases e : prog f ω with
        | error s => exact (endsThen_error (reject_error e) _ _ h).elim
        | ok v =>
          obtain ⟨r, ω'⟩ := v
          by_cases hr : r ∈ good
          · obtain ⟨rfl, h3⟩ := (endsThen_ok (reject_good e hr) _ _).1 h
            exact .inl ⟨f, ω', e, h3⟩
          · rw [endsThen_congr (reject_bad e hr)] at h
            exact .inr ⟨⟨r, hr⟩, f, ω', e, Set.mem_iUnion.2 ⟨f, h⟩⟩
    · rintro (⟨f, ω', h, hg⟩ | ⟨⟨j, hj⟩, f, ω', h, hx⟩)
      · exact Set.mem_iUnion.2 ⟨f + 1, ω', reject_good h hk, hg⟩
      · obtain ⟨g, ω'', h2, hg⟩ := Set.mem_iUnion.1 hx
        refine Set.mem_iUnion.2 ⟨f + g + 1, ω'', ?_, hg⟩
        have e1 : prog (f + g) ω = .ok (j, ω') := by rw [hf.mono f g ω (by rw [h]; simp), h]
        have e2 : rejectLoop prog good (f + g) ω' = .ok (k, ω'') := by
          rw [add_comm, reject_mono hf.mono g f (by rw [h2]; simp), h2]
        rw [reject_bad e1 hj, e2]
  have hmj : ∀ j : (goodᶜ : Set ℤ), MeasurableSet (⋃ f, endsThen (prog f) j X) := fun j => .iUnion fun f => hf.meas f j X hXm
  conv_lhs => rw [e]
  rw [measure_union, hf.law k G hG, measure_iUnion, ENNReal.tsum_mul_right.symm]
  · congr 1
    exact tsum_congr fun j => hf.law j X hXm
  · intro i j hij
    exact hf.disjoint (fun h => hij (Subtype.ext h)) _ _
  · exact hmj
  · rw [Set.disjoint_iUnion_right]
    rintro ⟨j, hj⟩
    exact hf.disjoint (fun h => hj (by simpa [h] using hk)) _ _
  · exact .iUnion hmj

/-- The law of the rejection method: the law of the program, conditioned. -/
theorem reject_law (hf : Fresh prog) {k : ℤ} (hk : k ∈ good) (hk0 : probIn prog {k} ≠ 0) :
    probIn (rejectLoop prog good) {k} = probIn prog {k} / (1 - ∑' j : (goodᶜ : Set ℤ), probIn prog {(j : ℤ)}) := by
  have h := reject_equation hf hk MeasurableSet.univ
  rw [measure_univ, mul_one] at h
  simp only [endsThen_univ] at h
  rw [← probIn_eq] at h
  refine solve ?_ ?_ h
  · rw [probIn_eq]
    exact measure_ne_top _ _
  · have h1 : ∀ x, probIn prog {x} = independentUniforms (⋃ f, endsThen (prog f) x Set.univ) := fun x => by
      simp only [endsThen_univ, probIn_eq]
    have hm : ∀ x : ℤ, MeasurableSet (⋃ f, endsThen (prog f) x Set.univ) := fun x => .iUnion fun f => hf.meas f x _ .univ
    have h2 : probIn prog {k} + ∑' j : (goodᶜ : Set ℤ), probIn prog {(j : ℤ)} ≤ 1 := by
      simp only [h1]
      rw [← measure_iUnion (fun i j hij => hf.disjoint (fun h => hij (Subtype.ext h)) _ _) fun j => hm j, ← measure_union _ (.iUnion fun j : (goodᶜ : Set ℤ) => hm j)]
      · exact prob_le_one
      · rw [Set.disjoint_iUnion_right]
        rintro ⟨j, hj⟩
        exact hf.disjoint (fun h => hj (by simpa [h] using hk)) _ _
    refine lt_of_lt_of_le ?_ h2
    refine (ENNReal.lt_add_right ?_ hk0).trans_eq (add_comm _ _)
    exact ne_top_of_le_ne_top ENNReal.one_ne_top (le_trans le_add_self h2)

end ICPC.Ideal
