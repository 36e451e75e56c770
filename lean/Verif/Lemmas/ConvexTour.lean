import Verif.Lemmas.ConvexSimple

/-!
# Simple tours that nowhere turn right are convex
-/

namespace ICPC

theorem along_to_zero (v : ℝ × ℝ) (p s : ℝ) : along (along 0 v p) 0 s = along 0 v ((1 - s) * p) := by
  simp only [along, Prod.fst_zero, Prod.snd_zero, Prod.mk.injEq]; constructor <;> ring

namespace Tour

variable {P : ℕ → ℝ × ℝ} {n : ℕ}

/-- The segment from the origin to a vertex on the first ray is covered by the edges before it. -/
theorem cover_first (h : Tour P n) {a : ℕ} (han : a + 1 < n) (h0 : ∀ i, 1 ≤ i → i < a → cr (P i) (P (i + 1)) = 0) :
    ∀ j, 1 ≤ j → j ≤ a → ∀ s, 0 ≤ s → s ≤ 1 → ∃ e, e < j ∧ ∃ t, 0 ≤ t ∧ t ≤ 1 ∧ along (P e) (P (e + 1)) t = along 0 (P j) s := by
  intro j hj
  induction j, hj using Nat.le_induction with
  | base =>
    intro _ s s0 s1
    exact ⟨0, by omega, s, s0, s1, by rw [h.start]⟩
  | succ j hj ih =>
    intro hja s s0 s1
    obtain ⟨l, l0, l1, hl⟩ := h.outward han h0 j (by omega)
    rcases le_total s l with hsl | hsl
    · rcases eq_or_lt_of_le l0 with e | e
      · exact absurd (by rw [hl, ← e, along_zero_zero]) (h.nonzero (i := j) hj (by omega))
      · obtain ⟨e', he, t, t0, t1, ht⟩ := ih (by omega) (s / l) (div_nonneg s0 l0) (by rw [div_le_one e]; exact hsl)
        refine ⟨e', by omega, t, t0, t1, ?_⟩
        rw [ht, hl, along_along, div_mul_cancel₀ _ e.ne']
    · refine ⟨j, by omega, (s - l) / (1 - l), div_nonneg (by linarith) (by linarith), by rw [div_le_one (by linarith)]; linarith, ?_⟩
      have hP : P (j + 1) = along 0 (P (j + 1)) 1 := (along_one _ _).symm
      rw [hl]
      nth_rw 2 [hP]
      rw [along_multiples]
      have : 1 - l ≠ 0 := by linarith
      congr 1
      field_simp
      ring

/-- The segment from a vertex on the last ray to the origin is covered by the edges after it. -/
theorem cover_last (h : Tour P n) {z : ℕ} (h2 : 2 ≤ z) (hz : z < n) (hT : 0 < cr (P (z - 1)) (P z)) (h0 : z = n - 1 ∨ cr (P z) (P (z + 1)) = 0) :
    ∀ m i, z ≤ i → i < n → n - i ≤ m → ∀ s, 0 ≤ s → s ≤ 1 → ∃ e, i ≤ e ∧ e < n ∧ ∃ t, 0 ≤ t ∧ t ≤ 1 ∧ along (P e) (P (e + 1)) t = along 0 (P i) s := by
  intro m
  induction m with
  | zero => intro i hi hin hm; omega
  | succ m ih =>
    intro i hi hin hm s s0 s1
    obtain ⟨l, l0, l1, hl⟩ := h.inward h2 hz hT h0 i hi hin
    rcases le_total l s with hsl | hsl
    · refine ⟨i, le_rfl, hin, (1 - s) / (1 - l), div_nonneg (by linarith) (by linarith), by rw [div_le_one (by linarith)]; linarith, ?_⟩
      have hP : P i = along 0 (P i) 1 := (along_one _ _).symm
      rw [hl]
      nth_rw 1 [hP]
      rw [along_multiples]
      have : 1 - l ≠ 0 := by linarith
      congr 1
      field_simp
      ring
    · rcases Nat.lt_or_ge (i + 1) n with h' | h'
      · have lpos : 0 < l := by
          rcases eq_or_lt_of_le l0 with e | e
          · exact absurd (by rw [hl, ← e, along_zero_zero]) (h.nonzero (i := i + 1) (by omega) h')
          · exact e
        obtain ⟨e', he, hen, t, t0, t1, ht⟩ := ih (i + 1) (by omega) h' (by omega) (s / l) (div_nonneg s0 l0) (by rw [div_le_one lpos]; exact hsl)
        refine ⟨e', by omega, hen, t, t0, t1, ?_⟩
        rw [ht, hl, along_along, div_mul_cancel₀ _ lpos.ne']
      · have e : P (i + 1) = 0 := by rw [show i + 1 = n by omega, h.finish]
        refine ⟨i, le_rfl, hin, 1 - s, by linarith, by linarith, ?_⟩
        rw [e]
        simp only [along, Prod.fst_zero, Prod.snd_zero, Prod.mk.injEq]
        constructor <;> ring

/-- The structure of a tour: away from the origin on one ray, then around it, then back to it on another ray. -/
structure Parts (P : ℕ → ℝ × ℝ) (n a z : ℕ) : Prop where
  a1 : 1 ≤ a
  az : a < z
  zn : z < n
  first : ∀ i, 1 ≤ i → i < a → cr (P i) (P (i + 1)) = 0
  middle : ∀ i, a ≤ i → i < z → 0 < cr (P i) (P (i + 1))
  last : z = n - 1 ∨ cr (P z) (P (z + 1)) = 0

theorem parts (h : Tour P n) : ∃ a z, Parts P n a z := by
  classical
  have hex : ∃ i, 1 ≤ i ∧ i + 1 < n ∧ cr (P i) (P (i + 1)) ≠ 0 := h.area
  set a := Nat.find hex with ha
  have ha' : 1 ≤ a ∧ a + 1 < n ∧ cr (P a) (P (a + 1)) ≠ 0 := Nat.find_spec hex
  have hamin : ∀ i, 1 ≤ i → i < a → cr (P i) (P (i + 1)) = 0 := by
    intro i h1 h2
    by_contra h0
    exact Nat.find_min hex h2 ⟨h1, by omega, h0⟩
  have hex2 : ∃ z, a < z ∧ (z = n - 1 ∨ cr (P z) (P (z + 1)) = 0) := ⟨n - 1, by omega, .inl rfl⟩
  set z := Nat.find hex2 with hz
  have hz' : a < z ∧ (z = n - 1 ∨ cr (P z) (P (z + 1)) = 0) := Nat.find_spec hex2
  have hzn : z ≤ n - 1 := Nat.find_min' hex2 ⟨by omega, .inl rfl⟩
  refine ⟨a, z, ha'.1, hz'.1, by omega, hamin, fun i h1 h2 => ?_, hz'.2⟩
  refine lt_of_le_of_ne (h.fan i (by omega) (by omega)) fun h0 => ?_
  rcases Nat.lt_or_ge a i with h' | h'
  · exact Nat.find_min hex2 h2 ⟨h', .inr h0.symm⟩
  · exact ha'.2.2 (by rw [show a = i by omega]; exact h0.symm)

theorem walk (h : Tour P n) {a z : ℕ} (hp : Parts P n a z) : Walk (fun i => if i = 0 then 0 else P (a - 1 + i)) (z - a + 2) := by
  have a1 := hp.a1
  have az := hp.az
  have zn := hp.zn
  have hT : 0 < cr (P (z - 1)) (P z) := by
    have := hp.middle (z - 1) (by omega) (by omega)
    rwa [show z - 1 + 1 = z by omega] at this
  set W : ℕ → ℝ × ℝ := fun i => if i = 0 then 0 else P (a - 1 + i) with hW
  have hW0 : W 0 = 0 := rfl
  have hWs : ∀ i, 1 ≤ i → W i = P (a - 1 + i) := fun i hi => if_neg (by omega)
  have hWa : W 1 = P a := by rw [hWs 1 le_rfl, show a - 1 + 1 = a by omega]
  refine ⟨hW0, ?_, ?_, ?_, ?_, ?_, ?_⟩
  · intro i h1 h2
    rw [hWs i h1, hWs (i + 1) (by omega)]
    exact hp.middle (a - 1 + i) (by omega) (by omega)
  · intro i h2
    rcases Nat.eq_zero_or_pos i with rfl | hi
    · rw [hW0, zero_add, hWa, hWs (0 + 2) (by omega), ← tri_rot, tri_zero, show a - 1 + (0 + 2) = a + 1 by omega]
      exact (hp.middle a le_rfl az).le
    · rw [hWs i hi, hWs (i + 1) (by omega), hWs (i + 2) (by omega)]
      exact h.left (a - 1 + i) (by omega)
  · rw [hWa, show z - a + 2 - 1 = z - a + 1 by omega, show z - a + 2 - 2 = z - a by omega, hWs (z - a + 1) (by omega), hWs (z - a) (by omega),
      show a - 1 + (z - a + 1) = z by omega, show a - 1 + (z - a) = z - 1 by omega]
    obtain ⟨l, l0, -, hl⟩ := h.outward_le (a := a) (by omega) hp.first a le_rfl 1 a1
    obtain ⟨m, m0, -, hm⟩ := h.inward_le (by omega) zn hT hp.last z le_rfl (n - 1) (by omega) (by omega)
    have lpos : 0 < l := lt_of_le_of_ne l0 fun e => h.nonzero (i := 1) le_rfl (by omega) (by rw [hl, ← e, along_zero_zero])
    have mpos : 0 < m := lt_of_le_of_ne m0 fun e => h.nonzero (i := n - 1) (by omega) (by omega) (by rw [hm, ← e, along_zero_zero])
    have hc := h.closing
    rw [hl, hm, cr_multiple_left, cr_multiple_right, ← mul_assoc] at hc
    have hc' : 0 ≤ cr (P a) (P z) := nonneg_of_mul_nonneg_right hc (mul_pos lpos mpos)
    rcases eq_or_lt_of_le hc' with e | e
    · right
      refine ⟨e.symm, ?_⟩
      obtain ⟨k, hk⟩ := multiple_of_cr (h.nonzero (i := a) a1 (by omega)) e.symm
      have hk0 : k < 0 := by
        by_contra hge
        rw [not_lt] at hge
        -- the first and the last edge overlap
        have hx : 0 < min l (m * k) := by
          refine lt_min lpos (mul_pos mpos (lt_of_le_of_ne hge fun e => ?_))
          exact h.nonzero (i := z) (by omega) zn (by rw [hk, ← e, along_zero_zero])
        set x := min l (m * k) with hxd
        have hx1 : x ≤ l := min_le_left _ _
        have hx2 : x ≤ m * k := min_le_right _ _
        have hmk : 0 < m * k := lt_of_lt_of_le hx hx2
        have hm' : P (n - 1) = along 0 (P a) (m * k) := by rw [hm, hk, along_along]
        have e1 : along (P 0) (P (0 + 1)) (x / l) = along 0 (P a) x := by
          rw [h.start, zero_add, hl, along_along, div_mul_cancel₀ _ lpos.ne']
        have e2 : along (P (n - 1)) (P (n - 1 + 1)) (1 - x / (m * k)) = along 0 (P a) x := by
          rw [show n - 1 + 1 = n by omega, h.finish, hm', along_to_zero, sub_sub_cancel, div_mul_cancel₀ _ hmk.ne']
        rcases h.simple 0 (n - 1) (by omega) (by omega) _ _ (div_nonneg hx.le lpos.le) (by rw [div_le_one lpos]; exact hx1)
          (by rw [sub_nonneg, div_le_one hmk]; exact hx2) (by have := div_nonneg hx.le hmk.le; linarith) (e1.trans e2.symm) with ⟨h1, -⟩ | ⟨-, -, h1⟩
        · omega
        · rw [e1] at h1
          have := multiple_inj (h.nonzero (i := a) a1 (by omega)) (h1.trans (along_zero_zero (P a)).symm)
          linarith
      rw [hk, cr_multiple_right] at hT
      have h1 : cr (P (z - 1)) (P a) = -cr (P a) (P (z - 1)) := by unfold cr; ring
      rw [h1] at hT
      by_contra hle
      rw [not_lt] at hle
      have := mul_nonneg_of_nonpos_of_nonpos hk0.le hle
      linarith
    · exact .inl e
  · intro i j hij hjn s t s0 s1 t0 t1 heq
    rw [hWs j (by omega), hWs (j + 1) (by omega)] at heq
    rcases Nat.eq_zero_or_pos i with rfl | hi
    · rw [hW0, zero_add, hWa] at heq
      obtain ⟨e, he, t', t0', t1', ht'⟩ := h.cover_first (a := a) (by omega) hp.first a a1 le_rfl s s0 s1
      rcases h.simple e (a - 1 + j) (by omega) (by omega) t' t t0' t1' t0 t1 (ht'.trans heq) with ⟨h1, -⟩ | ⟨-, h1, -⟩ <;> omega
    · rw [hWs i hi, hWs (i + 1) (by omega)] at heq
      rcases h.simple (a - 1 + i) (a - 1 + j) (by omega) (by omega) s t s0 s1 t0 t1 heq with ⟨h1, -⟩ | ⟨h1, -⟩ <;> omega
  · intro i hi hin s t s0 s1 t0 t1 heq
    rw [hWs i hi, hWs (i + 1) (by omega), show z - a + 2 - 1 = z - a + 1 by omega, hWs (z - a + 1) (by omega),
      show a - 1 + (z - a + 1) = z by omega] at heq
    obtain ⟨e, he, hen, t', t0', t1', ht'⟩ := h.cover_last (by omega) zn hT hp.last n z le_rfl zn (by omega) (1 - t) (by linarith) (by linarith)
    have e2 : along (P z) 0 t = along 0 (P z) (1 - t) := by
      simp only [along, Prod.fst_zero, Prod.snd_zero, Prod.mk.injEq]; constructor <;> ring
    rcases h.simple (a - 1 + i) e (by omega) hen s t' s0 s1 t0' t1' (heq.trans (e2.trans ht'.symm)) with ⟨h1, -⟩ | ⟨h1, -⟩ <;> omega
  · intro i hin s t s0 s1 t0 t1 heq
    rcases Nat.eq_zero_or_pos i with rfl | hi
    · rw [hW0, zero_add, hWa, hWs (0 + 2) (by omega), show a - 1 + (0 + 2) = a + 1 by omega] at *
      have h1 : cr (P a) (along 0 (P a) s) = 0 := by rw [cr_multiple_right, cr_self, mul_zero]
      have hm := hp.middle a le_rfl az
      rw [heq, cr_along_right, cr_self, mul_zero, zero_add] at h1
      rcases mul_eq_zero.1 h1 with h1 | h1
      · rw [heq, h1, along_start]
      · linarith
    · rw [hWs i hi, hWs (i + 1) (by omega), hWs (i + 2) (by omega)] at *
      rcases h.simple (a - 1 + i) (a - 1 + (i + 1)) (by omega) (by omega) s t s0 s1 t0 t1 heq with ⟨-, h1⟩ | ⟨h1, -⟩
      · exact h1
      · omega

/-- The directions from the origin grow, over at most half a turn. -/
theorem sorted (h : Tour P n) {a z : ℕ} (hp : Parts P n a z) :
    0 ≤ cr (P a) (P z) ∧ ∀ i j, a ≤ i → i < j → j ≤ z → i ≠ a ∨ j ≠ z → 0 < cr (P i) (P j) := by
  have a1 := hp.a1
  have az := hp.az
  have hw := h.walk hp
  have hhalf : ∀ j, a < j → j < z → 0 < cr (P a) (P j) := by
    intro j h1 h2
    have := hw.half (by omega) (j - (a - 1)) (by omega) (by omega)
    simp only [one_ne_zero, if_false] at this
    rwa [if_neg (by omega), show a - 1 + 1 = a by omega, show a - 1 + (j - (a - 1)) = j by omega] at this
  have hcl : 0 ≤ cr (P a) (P z) := by
    have := hw.closing
    simp only [one_ne_zero, if_false] at this
    rw [if_neg (by omega), show a - 1 + 1 = a by omega, show a - 1 + (z - a + 2 - 1) = z by omega] at this
    rcases this with h' | h'
    · exact h'.le
    · exact h'.1.ge
  refine ⟨hcl, fun i j hi hij hjz hne => ?_⟩
  induction j, (by omega : i + 1 ≤ j) using Nat.le_induction with
  | base => exact hp.middle i hi (by omega)
  | succ j hj ih =>
    rcases Nat.lt_or_ge a i with h' | h'
    · have h1 := ih (by omega) (by omega) (.inl (by omega))
      have h2 := hp.middle j (by omega) (by omega)
      have h3 := hhalf i h' (by omega)
      have h4 := hhalf j (by omega) (by omega)
      have h5 : 0 ≤ cr (P a) (P (j + 1)) := by
        rcases Nat.lt_or_ge (j + 1) z with h' | h'
        · exact (hhalf _ (by omega) h').le
        · rwa [show j + 1 = z by omega]
      have id := cr_four (P a) (P i) (P j) (P (j + 1))
      have := mul_pos h3 h2
      have := mul_nonneg h5 h1.le
      exact pos_of_mul_pos_right (by linarith : 0 < cr (P a) (P j) * cr (P i) (P (j + 1))) h4.le
    · have e : i = a := by omega
      subst e
      exact hhalf (j + 1) (by omega) (by rcases hne with h | h <;> omega)

/-- All turns among the vertices of the middle part. -/
theorem middle_convex (h : Tour P n) {a z : ℕ} (hp : Parts P n a z) {i j k : ℕ} (hi : a ≤ i) (hij : i < j) (hjk : j < k) (hk : k ≤ z) :
    0 ≤ tri (P i) (P j) (P k) := by
  have a1 := hp.a1
  have zn := hp.zn
  obtain ⟨hc, hs⟩ := h.sorted hp
  have hl : ∀ i, a ≤ i → i + 2 ≤ z → 0 ≤ tri (P i) (P (i + 1)) (P (i + 2)) := fun i h1 h2 => h.left i (by omega)
  by_cases hall : i = a ∧ k = z
  · obtain ⟨rfl, rfl⟩ := hall
    rcases eq_or_lt_of_le hc with e | e
    · have h1 := hs i j le_rfl hij (by omega) (.inr (by omega))
      have h2 := hs j k (by omega) hjk le_rfl (.inl (by omega))
      have id : tri (P i) (P j) (P k) = cr (P i) (P j) + cr (P j) (P k) - cr (P i) (P k) := by
        simp only [tri, cr, Prod.fst_sub, Prod.snd_sub]; ring
      rw [id, ← e]
      linarith
    · refine chain_convex (a := i) (z := k) (fun x y h1 h2 h3 => ?_) hl _ i j k le_rfl hij hjk le_rfl le_rfl
      by_cases hxy : x = i ∧ y = k
      · rw [hxy.1, hxy.2]; exact e
      · exact hs x y h1 h2 h3 (by omega)
  · rcases Nat.lt_or_ge k z with h' | h'
    · exact chain_convex (a := a) (z := z - 1) (fun x y h1 h2 h3 => hs x y h1 h2 (by omega) (.inr (by omega)))
        (fun x h1 h2 => hl x h1 (by omega)) _ i j k hi hij hjk (by omega) le_rfl
    · exact chain_convex (a := a + 1) (z := z) (fun x y h1 h2 h3 => hs x y (by omega) h2 h3 (.inl (by omega)))
        (fun x h1 h2 => hl x (by omega) h2) _ i j k (by omega) hij hjk (by omega) le_rfl

/-- **All vertices of a simple tour that nowhere turns right, in their order, make no right turn.** -/
theorem convex (h : Tour P n) {i j k : ℕ} (hij : i < j) (hjk : j < k) (hk : k < n) : 0 ≤ tri (P i) (P j) (P k) := by
  obtain ⟨a, z, hp⟩ := h.parts
  have a1 := hp.a1
  have az := hp.az
  have zn := hp.zn
  have hT : 0 < cr (P (z - 1)) (P z) := by
    have := hp.middle (z - 1) (by omega) (by omega)
    rwa [show z - 1 + 1 = z by omega] at this
  obtain ⟨hc, hs⟩ := h.sorted hp
  have hcr : ∀ x y, a ≤ x → x ≤ y → y ≤ z → 0 ≤ cr (P x) (P y) := by
    intro x y h1 h2 h3
    rcases Nat.lt_or_ge x y with h' | h'
    · by_cases hxy : x = a ∧ y = z
      · rw [hxy.1, hxy.2]; exact hc
      · exact (hs x y h1 h' h3 (by omega)).le
    · rw [show x = y by omega, cr_self]
  have htri : ∀ x y w, a ≤ x → x ≤ y → y ≤ w → w ≤ z → 0 ≤ tri (P x) (P y) (P w) := by
    intro x y w h1 h2 h3 h4
    rcases Nat.lt_or_ge x y with h5 | h5
    · rcases Nat.lt_or_ge y w with h6 | h6
      · exact h.middle_convex hp h1 h5 h6 h4
      · rw [show y = w by omega, tri_right]
    · rw [show x = y by omega, tri, sub_self]; simp [cr]
  -- directions of all vertices
  have hdir : ∀ x y, x ≤ y → y < n → 0 ≤ cr (P x) (P y) := by
    intro x y hxy hy
    rcases Nat.lt_or_ge y a with h1 | h1
    · obtain ⟨l, -, -, hl⟩ := h.outward_le (a := a) (by omega) hp.first y h1.le x hxy
      rw [hl, cr_multiple_left, cr_self, mul_zero]
    rcases Nat.lt_or_ge z x with h2 | h2
    · obtain ⟨l, -, -, hl⟩ := h.inward_le (by omega) zn hT hp.last x h2.le y hxy hy.le
      rw [hl, cr_multiple_right, cr_self, mul_zero]
    obtain ⟨x', l, lx, lx', l0, -, hl⟩ : ∃ y l, a ≤ y ∧ y ≤ max x a ∧ 0 ≤ l ∧ l ≤ 1 ∧ P x = along 0 (P y) l := by
      rcases Nat.lt_or_ge x a with h' | h'
      · obtain ⟨l, l0, l1, hl⟩ := h.outward_le (a := a) (by omega) hp.first a le_rfl x h'.le
        exact ⟨a, l, le_rfl, le_max_right _ _, l0, l1, hl⟩
      · exact ⟨x, 1, h', le_max_left _ _, zero_le_one, le_rfl, (along_one _ _).symm⟩
    obtain ⟨y', m, my, my', m0, -, hm⟩ : ∃ w l, w ≤ z ∧ min y z ≤ w ∧ 0 ≤ l ∧ l ≤ 1 ∧ P y = along 0 (P w) l := by
      rcases Nat.lt_or_ge z y with h' | h'
      · obtain ⟨l, l0, l1, hl⟩ := h.inward_le (by omega) zn hT hp.last z le_rfl y h'.le hy.le
        exact ⟨z, l, le_rfl, min_le_right _ _, l0, l1, hl⟩
      · exact ⟨y, 1, h', min_le_left _ _, zero_le_one, le_rfl, (along_one _ _).symm⟩
    rw [hl, hm, cr_multiple_left, cr_multiple_right]
    exact mul_nonneg l0 (mul_nonneg m0 (hcr x' y' lx (by omega) my))
  -- two vertices on the first ray
  rcases Nat.lt_or_ge a j with h1 | h1
  swap
  · obtain ⟨l, l0, l1, hl⟩ := h.outward_le (a := a) (by omega) hp.first j h1 i hij.le
    have e : tri (P i) (P j) (P k) = (1 - l) * cr (P j) (P k) := by
      rw [hl]; simp only [tri, cr, along, Prod.fst_sub, Prod.snd_sub, Prod.fst_zero, Prod.snd_zero]; ring
    rw [e]
    exact mul_nonneg (by linarith) (hdir j k hjk.le hk)
  -- two vertices on the last ray
  rcases Nat.lt_or_ge j z with h2 | h2
  swap
  · obtain ⟨l, l0, l1, hl⟩ := h.inward_le (by omega) zn hT hp.last j h2 k hjk.le hk.le
    have e : tri (P i) (P j) (P k) = (1 - l) * cr (P i) (P j) := by
      rw [hl]; simp only [tri, cr, along, Prod.fst_sub, Prod.snd_sub, Prod.fst_zero, Prod.snd_zero]; ring
    rw [e]
    exact mul_nonneg (by linarith) (hdir i j hij.le (by omega))
  -- the vertex between is in the middle part
  obtain ⟨x, l, xa, xj, l0, l1, hl⟩ : ∃ y l, a ≤ y ∧ y ≤ j ∧ 0 ≤ l ∧ l ≤ 1 ∧ P i = along 0 (P y) l := by
    rcases Nat.lt_or_ge i a with h' | h'
    · obtain ⟨l, l0, l1, hl⟩ := h.outward_le (a := a) (by omega) hp.first a le_rfl i h'.le
      exact ⟨a, l, le_rfl, h1.le, l0, l1, hl⟩
    · exact ⟨i, 1, h', hij.le, zero_le_one, le_rfl, (along_one _ _).symm⟩
  obtain ⟨y, m, yz, yj, m0, m1, hm⟩ : ∃ w l, w ≤ z ∧ j ≤ w ∧ 0 ≤ l ∧ l ≤ 1 ∧ P k = along 0 (P w) l := by
    rcases Nat.lt_or_ge z k with h' | h'
    · obtain ⟨l, l0, l1, hl⟩ := h.inward_le (by omega) zn hT hp.last z le_rfl k h'.le hk.le
      exact ⟨z, l, le_rfl, h2.le, l0, l1, hl⟩
    · exact ⟨k, 1, h', hjk.le, zero_le_one, le_rfl, (along_one _ _).symm⟩
  have e : tri (P i) (P j) (P k) = (1 - l) * m * cr (P j) (P y) + l * (1 - m) * cr (P x) (P j) + l * m * tri (P x) (P j) (P y) := by
    rw [hl, hm]; simp only [tri, cr, along, Prod.fst_sub, Prod.snd_sub, Prod.fst_zero, Prod.snd_zero]; ring
  rw [e]
  have p1 := mul_nonneg (mul_nonneg (by linarith : 0 ≤ 1 - l) m0) (hcr j y h1.le yj yz)
  have p2 := mul_nonneg (mul_nonneg l0 (by linarith : 0 ≤ 1 - m)) (hcr x j xa xj h2.le)
  have p3 := mul_nonneg (mul_nonneg l0 m0) (htri x j y xa xj yj yz)
  linarith

end Tour

end ICPC
