import Verif.Props.PermCycles

/-!
# C07: `Random::perm(count, fix, offset)`
-/

namespace ICPC.Props
open ICPC ICPC.Spec

/-! ### shuffles of rearranged ranges -/

theorem expect_shuffle_nodup {α : Type} [DecidableEq α] (l : List α) (hlen : l.length < 2 ^ 63) (hnd : l.Nodup) (g : List α → ℚ) :
    expect (shuffle l) g = ∑ a ∈ l.permutations.toFinset, 1 / (l.length.factorial : ℚ) * g a := by
  apply expect_uniform
  · exact SatOk.mono (C03_shuffle_perm l hlen) fun a ha => by simpa using ha
  · intro a ha
    exact C03_shuffle_uniform l a hlen hnd (by simpa using ha)

theorem expect_shuffle_map {α β : Type} (v : α → β) (l : List α) (g : List β → ℚ) :
    expect (shuffle (l.map v)) g = expect (shuffle l) fun a => g (a.map v) := by
  rw [C03_shuffle_values_irrelevant, expect_bind]
  rfl

theorem expect_shuffle_perm {α β : Type} [DecidableEq α] (v : α → β) {p q : List α} (hlen : p.length < 2 ^ 63) (hnd : p.Nodup) (hp : p.Perm q)
    (g : List β → ℚ) : expect (shuffle (p.map v)) g = expect (shuffle (q.map v)) g := by
  rw [expect_shuffle_map, expect_shuffle_map, expect_shuffle_nodup p hlen hnd,
    expect_shuffle_nodup q (by rw [← hp.length_eq]; exact hlen) (hp.nodup_iff.1 hnd), hp.length_eq]
  congr 1
  ext a
  simp only [List.mem_toFinset, List.mem_permutations]
  exact ⟨fun h => h.trans hp, fun h => h.trans hp.symm⟩

/-! ### the loops -/

/-- `tmp` and `res` when the positions in `b` are exchanged -/
def tmpOf (n : Nat) (b : Nat → Bool) : List Int := (List.range n).map fun k => if b k then -1 else (k : Int)
def resOf (n : Nat) (b : Nat → Bool) : List Int := (List.range n).map fun k => if b k then (k : Int) else -1

def toggle (b : Nat → Bool) (k : Nat) : Nat → Bool := fun j => if j = k then !b j else b j

theorem set_tmp (n : Nat) (b : Nat → Bool) (k : Nat) :
    (tmpOf n b).set k (if b k then (k : Int) else -1) = tmpOf n (toggle b k) := by
  apply List.ext_getElem
  · simp [tmpOf]
  · intro i h1 h2
    simp only [tmpOf, List.getElem_set, List.getElem_map, List.getElem_range, toggle]
    by_cases h : k = i
    · subst h; simp only [if_true]; cases b k <;> simp
    · simp only [if_neg h, if_neg (Ne.symm h)]

theorem set_res (n : Nat) (b : Nat → Bool) (k : Nat) :
    (resOf n b).set k (if b k then -1 else (k : Int)) = resOf n (toggle b k) := by
  apply List.ext_getElem
  · simp [resOf]
  · intro i h1 h2
    simp only [resOf, List.getElem_set, List.getElem_map, List.getElem_range, toggle]
    by_cases h : k = i
    · subst h; simp only [if_true]; cases b k <;> simp
    · simp only [if_neg h, if_neg (Ne.symm h)]

theorem fixLoop_ok {n : Nat} {offset : Int} (ho' : I64 (offset + n)) : ∀ (fix : List Int) (b : Nat → Bool),
    (∀ x ∈ fix, offset ≤ x ∧ x < offset + n) →
    fixLoop n offset fix (tmpOf n b) (resOf n b) =
      .ok (tmpOf n (fix.foldl (fun b x => toggle b (x - offset).toNat) b), resOf n (fix.foldl (fun b x => toggle b (x - offset).toNat) b)) := by
  intro fix
  induction fix with
  | nil => intro b _; rfl
  | cons x fix ih =>
    intro b h
    have hx := h x (by simp)
    unfold fixLoop
    rw [chk_ok ho', ok_bind, decide_eq_true hx, judgeAssert_true, ok_bind]
    have hk : (x - offset).toNat < n := by omega
    rw [List.foldl_cons]
    generalize (x - offset).toNat = k at *
    have e1 : (tmpOf n b)[k]? = some (if b k then -1 else (k : Int)) := by simp [tmpOf, hk]
    have e2 : (resOf n b)[k]? = some (if b k then (k : Int) else -1) := by simp [resOf, hk]
    simp only [e1, e2]
    rw [set_tmp, set_res, ih _ fun y hy => h y (by simp [hy])]

theorem foldl_toggle (offset : Int) : ∀ (fix : List Int) (b : Nat → Bool) (j : Nat), (∀ x ∈ fix, offset ≤ x) → fix.Nodup →
    (fix.foldl (fun b x => toggle b (x - offset).toNat) b) j = if offset + j ∈ fix then !b j else b j := by
  intro fix
  induction fix with
  | nil => intro b j _ _; simp
  | cons x fix ih =>
    intro b j h hnd
    have hx := h x (by simp)
    rw [List.nodup_cons] at hnd
    rw [List.foldl_cons, ih _ j (fun y hy => h y (by simp [hy])) hnd.2]
    unfold toggle
    by_cases hj : offset + j = x
    · have h1 : j = (x - offset).toNat := by omega
      have h2 : offset + (j : Int) ∉ fix := by rw [hj]; exact hnd.1
      rw [if_neg h2, if_pos h1, if_pos (by simp [hj])]
    · have h1 : j ≠ (x - offset).toNat := by omega
      simp only [if_neg h1, List.mem_cons, hj, false_or]

/-- `fillLoop` without the arithmetic: `q` lists the values for the gaps -/
def fill : List Int → List Int → List Int
  | _, [] => []
  | q, x :: xs => if x < 0 then (match q with | [] => [] | y :: q' => y :: fill q' xs) else x :: fill q xs

theorem nextNonNeg_ok : ∀ (tmp : List Int) (y : Int) (q : List Int), tmp.filter (fun x => decide (0 ≤ x)) = y :: q →
    ∃ tmp', nextNonNeg tmp = .ok (y, tmp') ∧ tmp'.filter (fun x => decide (0 ≤ x)) = q := by
  intro tmp
  induction tmp with
  | nil => intro y q h; simp at h
  | cons t ts ih =>
    intro y q h
    unfold nextNonNeg
    by_cases ht : t < 0
    · rw [if_pos ht]
      rw [List.filter_cons_of_neg (by simpa using ht)] at h
      exact ih y q h
    · rw [if_neg ht]
      rw [List.filter_cons_of_pos (by simpa using ht)] at h
      cases h
      exact ⟨ts, rfl, rfl⟩

theorem fillLoop_ok {offset : Int} : ∀ (res tmp : List Int), (∀ x ∈ res, 0 ≤ x → I64 (x + offset)) → (∀ x ∈ tmp, 0 ≤ x → I64 (x + offset)) →
    res.countP (fun x => decide (x < 0)) ≤ (tmp.filter (fun x => decide (0 ≤ x))).length →
    fillLoop offset tmp res = .ok ((fill (tmp.filter (fun x => decide (0 ≤ x))) res).map (· + offset)) := by
  intro res
  induction res with
  | nil => intro tmp _ _ _; cases tmp <;> rfl
  | cons x xs ih =>
    intro tmp h1 h2 h3
    unfold fillLoop
    by_cases hx : x < 0
    · rw [if_pos hx]
      rw [List.countP_cons_of_pos (by simpa using hx)] at h3
      cases hq : tmp.filter (fun x => decide (0 ≤ x)) with
      | nil => rw [hq] at h3; simp at h3
      | cons y q =>
        obtain ⟨tmp', e1, e2⟩ := nextNonNeg_ok tmp y q hq
        have hy : y ∈ tmp ∧ 0 ≤ y := by
          have : y ∈ tmp.filter (fun x => decide (0 ≤ x)) := by rw [hq]; simp
          rw [List.mem_filter] at this
          exact ⟨this.1, by simpa using this.2⟩
        have hsub : ∀ x ∈ tmp', 0 ≤ x → I64 (x + offset) := by
          intro z hz hz0
          apply h2 z _ hz0
          have : z ∈ tmp'.filter (fun x => decide (0 ≤ x)) := List.mem_filter.2 ⟨hz, by simpa using hz0⟩
          rw [e2] at this
          have : z ∈ tmp.filter (fun x => decide (0 ≤ x)) := by rw [hq]; simp [this]
          exact (List.mem_filter.1 this).1
        rw [e1, ok_bind]
        dsimp only
        rw [chk_ok (h2 y hy.1 hy.2), ok_bind, ih tmp' (fun z hz => h1 z (by simp [hz])) hsub (by rw [e2]; rw [hq] at h3; simpa using h3), ok_bind, e2]
        simp [fill, hx]
    · rw [if_neg hx, chk_ok (h1 x (by simp) (by omega)), ok_bind, ih tmp (fun z hz => h1 z (by simp [hz])) h2 ?_, ok_bind]
      · simp [fill, hx]
      · rw [List.countP_cons_of_neg (by simpa using hx)] at h3; exact h3

theorem fill_length : ∀ (res q : List Int), res.countP (fun x => decide (x < 0)) ≤ q.length → (fill q res).length = res.length := by
  intro res
  induction res with
  | nil => intro q _; cases q <;> rfl
  | cons x xs ih =>
    intro q h
    by_cases hx : x < 0
    · rw [List.countP_cons_of_pos (by simpa using hx)] at h
      cases q with
      | nil => simp at h
      | cons y q => simp [fill, hx, ih q (by simpa using h)]
    · rw [List.countP_cons_of_neg (by simpa using hx)] at h
      simp [fill, hx, ih q h]

theorem fill_perm : ∀ (res q : List Int), res.countP (fun x => decide (x < 0)) = q.length →
    (fill q res).Perm (q ++ res.filter fun x => decide (0 ≤ x)) := by
  intro res
  induction res with
  | nil => intro q h; simp at h; simp [fill, List.length_eq_zero_iff.1 h.symm]
  | cons x xs ih =>
    intro q h
    by_cases hx : x < 0
    · rw [List.countP_cons_of_pos (by simpa using hx)] at h
      cases q with
      | nil => simp at h
      | cons y q =>
        rw [List.filter_cons_of_neg (by simpa using hx)]
        simp only [fill, hx, if_true, List.cons_append]
        exact (ih q (by simpa using h)).cons y
    · rw [List.countP_cons_of_neg (by simpa using hx)] at h
      rw [List.filter_cons_of_pos (by simpa using hx)]
      simp only [fill, hx, if_false]
      exact ((ih q h).cons x).trans List.perm_middle.symm

theorem fill_get : ∀ (res q : List Int), res.countP (fun x => decide (x < 0)) ≤ q.length → ∀ (k : Nat) (v : Int), res[k]? = some v → 0 ≤ v →
    (fill q res)[k]? = some v := by
  intro res
  induction res with
  | nil => intro q _ k v h; simp at h
  | cons x xs ih =>
    intro q h k v hv h0
    by_cases hx : x < 0
    · rw [List.countP_cons_of_pos (by simpa using hx)] at h
      cases q with
      | nil => simp at h
      | cons y q =>
        cases k with
        | zero => simp at hv; omega
        | succ k =>
          simp only [fill, hx, if_true, List.getElem?_cons_succ] at *
          exact ih q (by simpa using h) k v hv h0
    · rw [List.countP_cons_of_neg (by simpa using hx)] at h
      cases k with
      | zero => simp at hv; subst hv; simp [fill, hx]
      | succ k =>
        simp only [fill, hx, if_false, List.getElem?_cons_succ] at *
        exact ih q h k v hv h0

theorem fill_map (φ : Int → Int) : ∀ (res q : List Int), (∀ x ∈ res, 0 ≤ x → φ x = x) → fill (q.map φ) res = (fill q res).map φ := by
  intro res
  induction res with
  | nil => intro q _; cases q <;> rfl
  | cons x xs ih =>
    intro q h
    have hxs : ∀ x ∈ xs, 0 ≤ x → φ x = x := fun y hy => h y (by simp [hy])
    by_cases hx : x < 0
    · cases q with
      | nil => simp [fill, hx]
      | cons y q => simp [fill, hx, ih q hxs]
    · simp [fill, hx, ih q hxs, h x (by simp) (by omega)]

theorem counts (n : Nat) (b : Nat → Bool) : (resOf n b).countP (fun x => decide (x < 0)) = ((tmpOf n b).filter fun x => decide (0 ≤ x)).length := by
  unfold resOf tmpOf
  rw [← List.countP_eq_length_filter, List.countP_map, List.countP_map]
  congr 1
  funext k
  simp only [Function.comp_apply]
  cases b k <;> simp

theorem pieces_perm (n : Nat) (b : Nat → Bool) :
    ((tmpOf n b).filter (fun x => decide (0 ≤ x)) ++ (resOf n b).filter fun x => decide (0 ≤ x)).Perm (interval 0 n) := by
  have e1 : (tmpOf n b).filter (fun x => decide (0 ≤ x)) = ((List.range n).filter fun k => !b k).map fun k : Nat => (k : Int) := by
    unfold tmpOf
    induction List.range n with
    | nil => rfl
    | cons k l ih =>
      rw [List.map_cons]
      cases hb : b k with
      | true => rw [List.filter_cons_of_neg (by simp), List.filter_cons_of_neg (by simp [hb]), ih]
      | false => rw [List.filter_cons_of_pos (by simp), List.filter_cons_of_pos (by simp [hb]), ih]; simp
  have e2 : (resOf n b).filter (fun x => decide (0 ≤ x)) = ((List.range n).filter fun k => b k).map fun k : Nat => (k : Int) := by
    unfold resOf
    induction List.range n with
    | nil => rfl
    | cons k l ih =>
      rw [List.map_cons]
      cases hb : b k with
      | false => rw [List.filter_cons_of_neg (by simp), List.filter_cons_of_neg (by simp [hb]), ih]
      | true => rw [List.filter_cons_of_pos (by simp), List.filter_cons_of_pos (by simp [hb]), ih]; simp
  rw [e1, e2, ← List.map_append]
  have : interval 0 n = (List.range n).map fun k : Nat => (k : Int) := by simp [interval]
  rw [this]
  apply List.Perm.map
  have := List.filter_append_perm (fun k => b k) (List.range n)
  exact List.perm_append_comm.trans this

theorem permFix_unfold {n : Nat} {offset : Int} (h64 : I64 n) (ho' : I64 (offset + n)) (fix : List Int)
    (hfix : ∀ x ∈ fix, offset ≤ x ∧ x < offset + n) (hnd : fix.Nodup) :
    permFix n fix offset = shuffle (tmpOf n fun k => decide (offset + k ∈ fix)) >>= fun tmp =>
      .done (fillLoop offset tmp (resOf n fun k => decide (offset + k ∈ fix))) := by
  unfold permFix
  have hr : rangeUpper n = .ok (tmpOf n fun _ => false) := by
    have := range_interval (offset := 0) (n := n) i64_zero (by rw [Int.zero_add]; exact h64)
    rw [Int.zero_add] at this
    unfold rangeUpper
    rw [this]
    simp [interval, tmpOf]
  have hres : List.replicate (n : Int).toNat (-1 : Int) = resOf n fun _ => false := by
    rw [Int.toNat_natCast]
    apply List.ext_getElem
    · simp [resOf]
    · intro i h1 h2; simp [resOf]
  have hb : (fix.foldl (fun b x => toggle b (x - offset).toNat) fun _ => false) = fun k : Nat => decide (offset + k ∈ fix) := by
    funext j
    rw [foldl_toggle offset fix _ j (fun x hx => (hfix x hx).1) hnd]
    by_cases h : offset + (j : Int) ∈ fix <;> simp [h]
  rw [decide_eq_true (Int.natCast_nonneg n), judgeAssert_true, Rand.lift_ok, Rand.bind_done_ok, hr, Rand.lift_ok, Rand.bind_done_ok, hres,
    fixLoop_ok ho' fix _ hfix, hb, Rand.lift_ok, Rand.bind_done_ok]
  rfl

theorem mem_tmpOf {n : Nat} {b : Nat → Bool} {x : Int} (h : x ∈ tmpOf n b) : x < n := by
  unfold tmpOf at h
  rw [List.mem_map] at h
  obtain ⟨k, hk, rfl⟩ := h
  rw [List.mem_range] at hk
  split <;> omega

theorem mem_resOf {n : Nat} {b : Nat → Bool} {x : Int} (h : x ∈ resOf n b) : x < n := by
  unfold resOf at h
  rw [List.mem_map] at h
  obtain ⟨k, hk, rfl⟩ := h
  rw [List.mem_range] at hk
  split <;> omega

theorem fillLoop_shuffled {n : Nat} {offset : Int} (ho : I64 offset) (ho' : I64 (offset + n)) (b : Nat → Bool) {tmp : List Int} (hp : tmp.Perm (tmpOf n b)) :
    fillLoop offset tmp (resOf n b) = .ok ((fill (tmp.filter fun x => decide (0 ≤ x)) (resOf n b)).map (· + offset)) := by
  apply fillLoop_ok
  · intro x hx h0
    have := mem_resOf hx
    exact i64_of_le ho ho' (by omega) (by omega)
  · intro x hx h0
    have := mem_tmpOf (hp.subset hx)
    exact i64_of_le ho ho' (by omega) (by omega)
  · rw [counts, (hp.filter _).length_eq]

/-- **C07.** For `0 ≤ count` and different `fix` values of `[offset, offset + count)`, `Random::perm(count, fix, offset)` returns
a permutation of `offset .. offset+count-1` that maps every position of a value of `fix` to this value. -/
theorem C07_perm_fix (n : Nat) (fix : List Int) (offset : Int) (h64 : I64 n) (ho : I64 offset) (ho' : I64 (offset + n))
    (hfix : ∀ x ∈ fix, offset ≤ x ∧ x < offset + n) (hnd : fix.Nodup) :
    SatOk (permFix n fix offset) fun res => res.length = n ∧ IsPermutationFrom offset res ∧ ∀ x ∈ fix, res[(x - offset).toNat]? = some x := by
  rw [permFix_unfold h64 ho' fix hfix hnd]
  have hlen : (tmpOf n fun k => decide (offset + k ∈ fix)).length = n := by simp [tmpOf]
  refine SatOk.bind (C03_shuffle_perm (tmpOf n fun k => decide (offset + k ∈ fix)) (by rw [hlen]; have := h64.2; omega)) fun tmp htmp => ?_
  rw [fillLoop_shuffled ho ho' _ htmp]
  generalize hb : (fun k : Nat => decide (offset + (k : Int) ∈ fix)) = b at *
  have hcnt : (resOf n b).countP (fun x => decide (x < 0)) = (tmp.filter fun x => decide (0 ≤ x)).length := by
    rw [counts, (htmp.filter _).length_eq]
  have hl : ((fill (tmp.filter fun x => decide (0 ≤ x)) (resOf n b)).map (· + offset)).length = n := by
    rw [List.length_map, fill_length _ _ (le_of_eq hcnt)]; simp [resOf]
  refine satOk_done ⟨hl, ?_, ?_⟩
  · unfold IsPermutationFrom
    rw [hl]
    have h1 := fill_perm (resOf n b) _ hcnt
    have h2 := h1.trans (((htmp.filter _).append_right _).trans (pieces_perm n b))
    have h3 := h2.map (· + offset)
    have : (interval 0 n).map (· + offset) = interval offset n := by
      unfold interval
      rw [List.map_map]
      apply List.map_congr_left
      intro i _
      simp only [Function.comp_apply]; ring
    rw [this] at h3
    exact h3
  · intro x hx
    have hxr := hfix x hx
    have hk : (x - offset).toNat < n := by omega
    have hbk : b (x - offset).toNat = true := by
      rw [← hb]
      have : offset + ((x - offset).toNat : Int) = x := by omega
      show decide (offset + ((x - offset).toNat : Int) ∈ fix) = true
      rw [this]; exact decide_eq_true hx
    have hget : (resOf n b)[(x - offset).toNat]? = some (((x - offset).toNat : Nat) : Int) := by
      simp [resOf, hk, hbk]
    have := fill_get _ _ (le_of_eq hcnt) _ _ hget (by omega)
    rw [List.getElem?_map, this]
    simp only [Option.map_some]
    congr 1; omega

/-- **C07.** All permutations with these fixed points are equally likely. -/
theorem C07_uniform (n : Nat) (fix : List Int) (offset : Int) (h64 : I64 n) (ho : I64 offset) (ho' : I64 (offset + n))
    (hfix : ∀ x ∈ fix, offset ≤ x ∧ x < offset + n) (hnd : fix.Nodup) (σ τ : Equiv.Perm (Fin n))
    (hσ : ∀ i : Fin n, offset + (i : Nat) ∈ fix → σ i = i) (hτ : ∀ i : Fin n, offset + (i : Nat) ∈ fix → τ i = i) :
    prob (permFix n fix offset) (List.ofFn fun i => ((σ i : Nat) : Int) + offset) =
      prob (permFix n fix offset) (List.ofFn fun i => ((τ i : Nat) : Int) + offset) := by
  rw [permFix_unfold h64 ho' fix hfix hnd, prob_bind, prob_bind]
  have hn63 : n < 2 ^ 63 := by have := h64.2; omega
  generalize hb : (fun k : Nat => decide (offset + (k : Int) ∈ fix)) = b at *
  -- the relabelling
  let π : Equiv.Perm (Fin n) := τ * σ⁻¹
  have hπ : ∀ i : Fin n, b i = true → π i = i := by
    intro i hi
    rw [← hb] at hi
    have hi' : offset + (i : Nat) ∈ fix := by simpa using hi
    show τ (σ⁻¹ i) = i
    have : σ⁻¹ i = i := by
      rw [Equiv.Perm.inv_eq_iff_eq]; exact (hσ i hi').symm
    rw [this, hτ i hi']
  have hπb : ∀ i : Fin n, b (π i) = b i := by
    intro i
    by_cases h : b i = true
    · rw [hπ i h]
    · by_cases h' : b (π i) = true
      · have := hπ (π i) h'
        have := π.injective this
        rw [this] at h'
        exact absurd h' h
      · simp at h h'; rw [h, h']
  let φ : Int → Int := fun x => if h : 0 ≤ x ∧ x.toNat < n then finVal (π ⟨x.toNat, h.2⟩) else x
  have hφ : ∀ i : Fin n, φ (finVal i) = finVal (π i) := by
    intro i
    have hi : 0 ≤ finVal i ∧ (finVal i).toNat < n := by
      unfold finVal; exact ⟨by omega, by rw [Int.toNat_natCast]; exact i.isLt⟩
    show (if h : 0 ≤ finVal i ∧ (finVal i).toNat < n then finVal (π ⟨(finVal i).toNat, h.2⟩) else finVal i) = _
    rw [dif_pos hi]
    rfl
  have hφneg : ∀ x : Int, (0 ≤ φ x ↔ 0 ≤ x) := by
    intro x
    show 0 ≤ (if h : 0 ≤ x ∧ x.toNat < n then finVal (π ⟨x.toNat, h.2⟩) else x) ↔ _
    by_cases h : 0 ≤ x ∧ x.toNat < n
    · rw [dif_pos h]; unfold finVal; omega
    · rw [dif_neg h]
  let v : Fin n → Int := fun i => if b i then -1 else finVal i
  have htmp : tmpOf n b = (List.finRange n).map v := by
    unfold tmpOf
    rw [← List.map_coe_finRange_eq_range, List.map_map]
    rfl
  have hmap : (tmpOf n b).map φ = ((List.finRange n).map π).map v := by
    rw [htmp, List.map_map, List.map_map]
    apply List.map_congr_left
    intro i _
    simp only [Function.comp_apply, v, hπb]
    cases hbi : b i with
    | true => simp [φ]
    | false => simp [hφ]
  have hfr : (List.finRange n).length < 2 ^ 63 := by simpa using hn63
  have hperm : (List.finRange n).Perm ((List.finRange n).map π) := by
    refine (List.perm_ext_iff_of_nodup (List.nodup_finRange _) ((List.nodup_finRange _).map π.injective)).2 fun i => ?_
    simp only [List.mem_finRange, true_iff, List.mem_map]
    exact ⟨π⁻¹ i, trivial, by simp⟩
  have key := expect_shuffle_perm v hfr (List.nodup_finRange n) hperm fun tmp =>
    prob (.done (fillLoop offset tmp (resOf n b)) : Rand (List Int)) (List.ofFn fun i => ((τ i : Nat) : Int) + offset)
  rw [← hmap, ← htmp] at key
  rw [key, expect_shuffle_map]
  have hlen : (tmpOf n b).length < 2 ^ 63 := by simpa [tmpOf] using hn63
  refine expect_congr_ok (C03_shuffle_perm (tmpOf n b) hlen) fun tmp hp => ?_
  have hp' : (tmp.map φ).Perm (tmpOf n b) := by
    have h1 := hp.map φ
    rw [hmap] at h1
    rw [htmp]
    exact h1.trans (hperm.symm.map v)
  rw [fillLoop_shuffled ho ho' b hp, fillLoop_shuffled ho ho' b hp', prob_done, prob_done]
  have hfil : (tmp.map φ).filter (fun x => decide (0 ≤ x)) = (tmp.filter fun x => decide (0 ≤ x)).map φ := by
    rw [List.filter_map]
    congr 1
    apply List.filter_congr
    intro x _
    simp only [Function.comp_apply, hφneg]
  have hres : ∀ x ∈ resOf n b, 0 ≤ x → φ x = x := by
    intro x hx h0
    unfold resOf at hx
    rw [List.mem_map] at hx
    obtain ⟨k, hk, rfl⟩ := hx
    rw [List.mem_range] at hk
    cases hbk : b k with
    | false => rw [hbk] at h0; simp at h0
    | true =>
      simp only [if_true]
      have := hφ ⟨k, hk⟩
      rw [hπ ⟨k, hk⟩ hbk] at this
      exact this
  rw [hfil, fill_map φ _ _ hres]
  congr 1
  apply propext
  have hstep : (List.ofFn fun i => ((τ i : Nat) : Int) + offset) = (((List.ofFn fun i => ((σ i : Nat) : Int))).map φ).map (· + offset) := by
    rw [List.map_map, List.map_ofFn]
    congr 1
    funext i
    have := hφ (σ i)
    simp only [Function.comp_apply]
    show _ = φ (finVal (σ i)) + offset
    rw [this]
    show _ = finVal (τ (σ⁻¹ (σ i))) + offset
    simp [finVal]
  have hstep' : (List.ofFn fun i => ((σ i : Nat) : Int) + offset) = ((List.ofFn fun i => ((σ i : Nat) : Int))).map (· + offset) := by
    rw [List.map_ofFn]; rfl
  have hadd : Function.Injective (fun x : Int => x + offset) := fun a b h => by simpa using h
  have hφinj : Function.Injective φ := by
    intro x y h
    have hx := hφneg x
    have hy := hφneg y
    by_cases h1 : 0 ≤ x ∧ x.toNat < n
    · by_cases h2 : 0 ≤ y ∧ y.toNat < n
      · have e1 : x = finVal (⟨x.toNat, h1.2⟩ : Fin n) := (Int.toNat_of_nonneg h1.1).symm
        have e2 : y = finVal (⟨y.toNat, h2.2⟩ : Fin n) := (Int.toNat_of_nonneg h2.1).symm
        rw [e1, e2, hφ, hφ] at h
        have := π.injective (finVal_injective h)
        rw [e1, e2, this]
      · exfalso
        have e1 : x = finVal (⟨x.toNat, h1.2⟩ : Fin n) := (Int.toNat_of_nonneg h1.1).symm
        have e2 : φ y = y := dif_neg h2
        rw [e1, hφ, e2] at h
        apply h2
        rw [← h]
        unfold finVal
        exact ⟨by omega, by rw [Int.toNat_natCast]; exact Fin.isLt _⟩
    · by_cases h2 : 0 ≤ y ∧ y.toNat < n
      · exfalso
        have e1 : y = finVal (⟨y.toNat, h2.2⟩ : Fin n) := (Int.toNat_of_nonneg h2.1).symm
        have e2 : φ x = x := dif_neg h1
        rw [e1, hφ, e2] at h
        apply h1
        rw [h]
        unfold finVal
        exact ⟨by omega, by rw [Int.toNat_natCast]; exact Fin.isLt _⟩
      · have e1 : φ x = x := dif_neg h1
        have e2 : φ y = y := dif_neg h2
        rw [e1, e2] at h; exact h
  rw [hstep, hstep']
  rw [(List.map_injective_iff.2 hadd).eq_iff, (List.map_injective_iff.2 hadd).eq_iff, (List.map_injective_iff.2 hφinj).eq_iff]

/-- A fix point outside of the permutation throws. -/
theorem C07_outside_throws (n : Nat) (x : Int) (rest : List Int) (offset : Int) (h64 : I64 n) (ho' : I64 (offset + n))
    (hx : x < offset ∨ offset + n ≤ x) : permFix n (x :: rest) offset = .done (.error .throw) := by
  unfold permFix
  have hr : rangeUpper n = .ok (interval 0 n) := by
    have := range_interval (offset := 0) (n := n) i64_zero (by rw [Int.zero_add]; exact h64)
    rw [Int.zero_add] at this
    exact this
  rw [decide_eq_true (Int.natCast_nonneg n), judgeAssert_true, Rand.lift_ok, Rand.bind_done_ok, hr, Rand.lift_ok, Rand.bind_done_ok]
  unfold fixLoop
  rw [chk_ok ho', ok_bind, decide_eq_false (by omega), judgeAssert_false]
  rfl

/-- A value that is listed twice in `fix` is not fixed: for `fix = {0, 0}` and `count = 2` the result can be `1, 0`. -/
theorem C07_duplicates_refuted : (permFix 2 [0, 0] 0).run true [1] = some (.ok [1, 0], []) := by decide +kernel

example : (permFix 3 [2] 1).run true [1, 1] = some (.ok [1, 2, 3], []) ∨ (permFix 3 [2] 1).run true [1, 1] = some (.ok [3, 2, 1], []) := by
  decide +kernel

end ICPC.Props
