import Mathlib.Tactic.IntervalCases
import Verif.Model.JavaSortHack
import Verif.Lemmas.Shuffle

namespace ICPC.Archive

theorem rd_ok {n : Nat} {i : Int} (h : 0 ≤ i ∧ i < n) (f : Int → Int) : rd n f i = .ok (f i) := if_pos h
theorem wr_ok {n : Nat} {i : Int} (h : 0 ≤ i ∧ i < n) (f : Int → Int) (v : Int) : wr n f i v = .ok (Function.update f i v) := if_pos h

theorem swapBoth_ok {n : Nat} {i j : Int} (hi : 0 ≤ i ∧ i < n) (hj : 0 ≤ j ∧ j < n) (st : Hack) : swapBoth n i j st =
    .ok ⟨Function.update (Function.update st.data i (st.data j)) j (st.data i), Function.update (Function.update st.p i (st.p j)) j (st.p i), st.mn, st.mx⟩ := by
  unfold swapBoth
  simp only [rd_ok hi, rd_ok hj, wr_ok hi, wr_ok hj, ok_bind]

theorem useMin_ok {n : Nat} {i : Int} (hi : 0 ≤ i ∧ i < n) {st : Hack} (h : st.data i = -1) (hm : I64 (st.mn + 1)) : useMin n i st =
    .ok ⟨Function.update st.data i st.mn, st.p, st.mn + 1, st.mx⟩ := by
  unfold useMin
  rw [rd_ok hi, ok_bind, h, if_pos (by rfl), chk_ok hm, ok_bind, wr_ok hi, ok_bind]

theorem useMax_ok {n : Nat} {i : Int} (hi : 0 ≤ i ∧ i < n) {st : Hack} (h : st.data i = -1) (hm : I64 (st.mx - 1)) : useMax n i st =
    .ok ⟨Function.update st.data i st.mx, st.p, st.mn, st.mx - 1⟩ := by
  unfold useMax
  rw [rd_ok hi, ok_bind, h, if_pos (by rfl), chk_ok hm, ok_bind, wr_ok hi, ok_bind]

/-- `f` with the values of `v` at the five places `e` -/
def put (e v : Nat → Int) (f : Int → Int) : Int → Int := fun i =>
  if i = e 0 then v 0 else if i = e 1 then v 1 else if i = e 2 then v 2 else if i = e 3 then v 3 else if i = e 4 then v 4 else f i

/-- five numbers -/
def five (a b c d e : Int) : Nat → Int
  | 0 => a
  | 1 => b
  | 2 => c
  | 3 => d
  | _ => e

/-- the places of a segment -/
structure Places (n : Nat) (l r : Int) (e : Nat → Int) : Prop where
  l0 : 0 ≤ l
  h0 : l + 1 < e 0
  h1 : e 0 < e 1
  h2 : e 1 < e 2
  h3 : e 2 < e 3
  h4 : e 3 < e 4
  h5 : e 4 < r - 1
  rn : r < n

theorem probes_places {n : Nat} {l r : Int} (h0 : 0 ≤ l) (hr : r < n) (h : 47 ≤ r - l + 1) : Places n l r (probes l r) := by
  constructor <;> (try simp only [probes, seventh]) <;> omega

section
variable {n : Nat} {l r : Int} {e : Nat → Int} {mn mx : Int}

theorem put_at (h : Places n l r e) (v : Nat → Int) (f : Int → Int) {k : Nat} (hk : k < 5) : put e v f (e k) = v k := by
  obtain ⟨_, _, h1, h2, h3, h4, _, _⟩ := h
  unfold put
  interval_cases k <;> split_ifs <;> first | rfl | omega

theorem places_in (h : Places n l r e) {k : Nat} (hk : k < 5) : 0 ≤ e k ∧ e k < n := by
  obtain ⟨_, _, h1, h2, h3, h4, _, _⟩ := h
  interval_cases k <;> omega

theorem put_update (h : Places n l r e) (v : Nat → Int) (f : Int → Int) {k : Nat} (hk : k < 5) (a : Int) :
    Function.update (put e v f) (e k) a = put e (Function.update v k a) f := by
  obtain ⟨_, _, h1, h2, h3, h4, _, _⟩ := h
  funext i
  unfold put
  rw [Function.update_apply]
  interval_cases k <;> split_ifs <;> first | rfl | omega

theorem swap_put (h : Places n l r e) (v q : Nat → Int) (f g : Int → Int) {j : Nat} (hj : j < 4) :
    swapBoth n (e (j + 1)) (e j) ⟨put e v f, put e q g, mn, mx⟩ =
    .ok ⟨put e (Function.update (Function.update v (j + 1) (v j)) j (v (j + 1))) f,
      put e (Function.update (Function.update q (j + 1) (q j)) j (q (j + 1))) g, mn, mx⟩ := by
  rw [swapBoth_ok (places_in h (by omega)) (places_in h (by omega))]
  simp only [put_at h _ _ (show j + 1 < 5 by omega), put_at h _ _ (show j < 5 by omega), put_update h _ _ (show j + 1 < 5 by omega),
    put_update h _ _ (show j < 5 by omega)]

theorem insertLoop_put (h : Places n l r e) (v q : Nat → Int) (f g : Int → Int) {j : Nat} (hj : j < 4) :
    insertLoop n e (j + 1) ⟨put e v f, put e q g, mn, mx⟩ =
    if myLess mn mx (v (j + 1)) (v j) then insertLoop n e j ⟨put e (Function.update (Function.update v (j + 1) (v j)) j (v (j + 1))) f,
      put e (Function.update (Function.update q (j + 1) (q j)) j (q (j + 1))) g, mn, mx⟩
    else .ok ⟨put e v f, put e q g, mn, mx⟩ := by
  rw [insertLoop]
  simp only [rd_ok (places_in h (show j + 1 < 5 by omega)), rd_ok (places_in h (show j < 5 by omega)), ok_bind,
    put_at h _ _ (show j + 1 < 5 by omega), put_at h _ _ (show j < 5 by omega), swap_put h v q f g hj]

theorem five_update (a b c d e x : Int) : Function.update (five a b c d e) 0 x = five x b c d e ∧ Function.update (five a b c d e) 1 x = five a x c d e ∧
    Function.update (five a b c d e) 2 x = five a b x d e ∧ Function.update (five a b c d e) 3 x = five a b c x e := by
  refine ⟨?_, ?_, ?_, ?_⟩ <;> funext k <;> rcases k with _ | _ | _ | _ | k <;> simp [Function.update, five]

theorem five_at (a b c d e : Int) : five a b c d e 0 = a ∧ five a b c d e 1 = b ∧ five a b c d e 2 = c ∧ five a b c d e 3 = d ∧ five a b c d e 4 = e :=
  ⟨rfl, rfl, rfl, rfl, rfl⟩

theorem put_congr (e : Nat → Int) {v w : Nat → Int} (f : Int → Int) (h : ∀ k < 5, v k = w k) : put e v f = put e w f := by
  funext i
  unfold put
  rw [h 0 (by omega), h 1 (by omega), h 2 (by omega), h 3 (by omega), h 4 (by omega)]

/-- the five elements after sorting -/
theorem insert_all (h : Places n l r e) (h0 : 0 ≤ mn) (hm : mn + 1 < mx - 3) (q : Nat → Int) (f g : Int → Int) :
    sortFive n e ⟨put e (five mx (mx - 1) (-1) (mn + 1) mn) f, put e q g, mn + 2, mx - 2⟩ = .ok ⟨put e (five mn (mn + 1) (-1) (mx - 1) mx) f, put e (five (q 4) (q 3) (q 2) (q 1) (q 0)) g, mn + 2, mx - 2⟩ := by
  have hq : put e q g = put e (five (q 0) (q 1) (q 2) (q 3) (q 4)) g := put_congr e g (by intro k hk; interval_cases k <;> rfl)
  have n0 : ∀ x : Int, 0 ≤ x → x ≠ -1 := fun x hx => by omega
  have lt : ∀ a b : Int, 0 ≤ a → 0 ≤ b → myLess (mn + 2) (mx - 2) a b = decide (a < b) := by
    intro a b ha hb
    unfold myLess
    rw [if_pos ⟨n0 a ha, n0 b hb⟩]
  have up : ∀ b : Int, myLess (mn + 2) (mx - 2) (-1) b = decide (b > mx - 2) := by
    intro b
    unfold myLess
    rw [if_neg (fun hh => hh.1 rfl), if_pos (by rfl)]
  have dn : ∀ a : Int, 0 ≤ a → myLess (mn + 2) (mx - 2) a (-1) = decide (a < mn + 2) := by
    intro a ha
    unfold myLess
    rw [if_neg (fun hh => hh.2 rfl), if_neg (show ¬ a = NO_VALUE from n0 a ha), if_pos (by rfl)]
  have t1 : myLess (mn + 2) (mx - 2) (mx - 1) mx = true := by rw [lt _ _ (by omega) (by omega)]; exact decide_eq_true (by omega)
  have t2 : myLess (mn + 2) (mx - 2) (-1) mx = true := by rw [up]; exact decide_eq_true (by omega)
  have t3 : myLess (mn + 2) (mx - 2) (-1) (mx - 1) = true := by rw [up]; exact decide_eq_true (by omega)
  have t4 : myLess (mn + 2) (mx - 2) (mn + 1) mx = true := by rw [lt _ _ (by omega) (by omega)]; exact decide_eq_true (by omega)
  have t5 : myLess (mn + 2) (mx - 2) (mn + 1) (mx - 1) = true := by rw [lt _ _ (by omega) (by omega)]; exact decide_eq_true (by omega)
  have t6 : myLess (mn + 2) (mx - 2) (mn + 1) (-1) = true := by rw [dn _ (by omega)]; exact decide_eq_true (by omega)
  have t7 : myLess (mn + 2) (mx - 2) mn mx = true := by rw [lt _ _ (by omega) (by omega)]; exact decide_eq_true (by omega)
  have t8 : myLess (mn + 2) (mx - 2) mn (mx - 1) = true := by rw [lt _ _ (by omega) (by omega)]; exact decide_eq_true (by omega)
  have t9 : myLess (mn + 2) (mx - 2) mn (-1) = true := by rw [dn _ (by omega)]; exact decide_eq_true (by omega)
  have t10 : myLess (mn + 2) (mx - 2) mn (mn + 1) = true := by rw [lt _ _ (by omega) (by omega)]; exact decide_eq_true (by omega)
  have step : ∀ (v w : Nat → Int) (j : Nat), j < 4 → myLess (mn + 2) (mx - 2) (v (j + 1)) (v j) = true →
      insertLoop n e (j + 1) ⟨put e v f, put e w g, mn + 2, mx - 2⟩ =
      insertLoop n e j ⟨put e (Function.update (Function.update v (j + 1) (v j)) j (v (j + 1))) f,
        put e (Function.update (Function.update w (j + 1) (w j)) j (w (j + 1))) g, mn + 2, mx - 2⟩ := by
    intro v w j hj ht
    rw [insertLoop_put h v w f g hj, if_pos ht]
  have sw : ∀ (a b c d x : Int), Function.update (Function.update (five a b c d x) 1 a) 0 b = five b a c d x ∧
      Function.update (Function.update (five a b c d x) 2 b) 1 c = five a c b d x ∧
      Function.update (Function.update (five a b c d x) 3 c) 2 d = five a b d c x := by
    intro a b c d x
    simp only [five_update, and_self]
  have sw4 : ∀ (a b c d x : Int), put e (Function.update (Function.update (five a b c d x) 4 d) 3 x) f = put e (five a b c x d) f ∧
      put e (Function.update (Function.update (five a b c d x) 4 d) 3 x) g = put e (five a b c x d) g := by
    intro a b c d x
    have : ∀ k < 5, Function.update (Function.update (five a b c d x) 4 d) 3 x k = five a b c x d k := by
      intro k hk
      interval_cases k <;> simp [Function.update, five]
    exact ⟨put_congr e f this, put_congr e g this⟩
  have s0 : ∀ (a b c d x a' b' c' d' x' : Int), myLess (mn + 2) (mx - 2) b a = true →
      insertLoop n e 1 ⟨put e (five a b c d x) f, put e (five a' b' c' d' x') g, mn + 2, mx - 2⟩ =
      .ok ⟨put e (five b a c d x) f, put e (five b' a' c' d' x') g, mn + 2, mx - 2⟩ := by
    intro a b c d x a' b' c' d' x' ht
    rw [step (five a b c d x) _ 0 (by omega) ht]
    have := (sw a b c d x).1
    have := (sw a' b' c' d' x').1
    simp only [five_at, zero_add, *]
    rw [insertLoop]
  have s1 : ∀ (a b c d x a' b' c' d' x' : Int), myLess (mn + 2) (mx - 2) c b = true →
      insertLoop n e 2 ⟨put e (five a b c d x) f, put e (five a' b' c' d' x') g, mn + 2, mx - 2⟩ =
      insertLoop n e 1 ⟨put e (five a c b d x) f, put e (five a' c' b' d' x') g, mn + 2, mx - 2⟩ := by
    intro a b c d x a' b' c' d' x' ht
    rw [step (five a b c d x) _ 1 (by omega) ht]
    have := (sw a b c d x).2.1
    have := (sw a' b' c' d' x').2.1
    simp only [five_at, Nat.reduceAdd, *]
  have s2 : ∀ (a b c d x a' b' c' d' x' : Int), myLess (mn + 2) (mx - 2) d c = true →
      insertLoop n e 3 ⟨put e (five a b c d x) f, put e (five a' b' c' d' x') g, mn + 2, mx - 2⟩ =
      insertLoop n e 2 ⟨put e (five a b d c x) f, put e (five a' b' d' c' x') g, mn + 2, mx - 2⟩ := by
    intro a b c d x a' b' c' d' x' ht
    rw [step (five a b c d x) _ 2 (by omega) ht]
    have := (sw a b c d x).2.2
    have := (sw a' b' c' d' x').2.2
    simp only [five_at, Nat.reduceAdd, *]
  have s3 : ∀ (a b c d x a' b' c' d' x' : Int), myLess (mn + 2) (mx - 2) x d = true →
      insertLoop n e 4 ⟨put e (five a b c d x) f, put e (five a' b' c' d' x') g, mn + 2, mx - 2⟩ =
      insertLoop n e 3 ⟨put e (five a b c x d) f, put e (five a' b' c' x' d') g, mn + 2, mx - 2⟩ := by
    intro a b c d x a' b' c' d' x' ht
    rw [step (five a b c d x) _ 3 (by omega) ht]
    have := (sw4 a b c d x).1
    have := (sw4 a' b' c' d' x').2
    simp only [five_at, Nat.reduceAdd, *]
  unfold sortFive
  rw [hq, s0 _ _ _ _ _ _ _ _ _ _ t1, ok_bind, s1 _ _ _ _ _ _ _ _ _ _ t2, s0 _ _ _ _ _ _ _ _ _ _ t3, ok_bind,
    s2 _ _ _ _ _ _ _ _ _ _ t4, s1 _ _ _ _ _ _ _ _ _ _ t5, s0 _ _ _ _ _ _ _ _ _ _ t6, ok_bind,
    s3 _ _ _ _ _ _ _ _ _ _ t7, s2 _ _ _ _ _ _ _ _ _ _ t8, s1 _ _ _ _ _ _ _ _ _ _ t9, s0 _ _ _ _ _ _ _ _ _ _ t10]

end

theorem partLoop_skip {n : Nat} {small large : Int → Bool} {great less : Int} {st : Hack} : ∀ (m F : Nat) (k : Int), m ≤ F → 0 ≤ k → k + m ≤ great + 1 → great < n →
    (∀ i, k ≤ i → i < k + m → small (st.data i) = false ∧ large (st.data i) = false) →
    partLoop n small large F k less great st = partLoop n small large (F - m) (k + m) less great st
  | 0, F, k, _, _, _, _, _ => by simp
  | m + 1, F + 1, k, h1, h2, h3, h4, h5 => by
    obtain ⟨ha, hb⟩ := h5 k le_rfl (by push_cast; omega)
    rw [partLoop, if_pos (by push_cast at h3; omega), rd_ok ⟨h2, by push_cast at h3; omega⟩, ok_bind, ha, hb]
    simp only [Bool.false_eq_true, if_false]
    rw [partLoop_skip m F (k + 1) (by omega) (by omega) (by push_cast at h3; omega) h4 (fun i hi hi' => h5 i (by omega) (by push_cast; omega))]
    rw [show F + 1 - (m + 1) = F - m by omega, show k + ((m + 1 : Nat) : Int) = k + 1 + m by push_cast; ring]

section
variable {n : Nat} {l r mn mx : Int}

/-- the data after the partition -/
def layerData (l r mn mx : Int) (f : Int → Int) : Int → Int := fun i =>
  if i = l then mn else if i = l + 1 then mn + 1 else if i = r - 1 then mx - 1 else if i = r then mx else f i

/-- where the element of `p` comes from -/
def source (l r : Int) (i : Int) : Int :=
  if i = l then probes l r 4 else if i = l + 1 then probes l r 3 else if i = r - 1 then probes l r 1 else if i = r then probes l r 0
  else if i = probes l r 0 then l + 1 else if i = probes l r 1 then l else if i = probes l r 3 then r else if i = probes l r 4 then r - 1 else i

theorem useAll (h : Places n l r (probes l r)) {st : Hack} (hseg : ∀ i, l ≤ i → i ≤ r → st.data i = -1) (h1 : I64 st.mn) (h2 : I64 st.mx)
    (h3 : st.mn + 47 ≤ st.mx) :
    fillFive n (probes l r) st =
    .ok ⟨put (probes l r) (five st.mx (st.mx - 1) (-1) (st.mn + 1) st.mn) st.data, put (probes l r) (fun k => st.p (probes l r k)) st.p, st.mn + 2, st.mx - 2⟩ := by
  obtain ⟨l0, p0, p1, p2, p3, p4, p5, rn⟩ := h
  unfold fillFive
  rw [useMin_ok ⟨by omega, by omega⟩ (hseg _ (by omega) (by omega)) (by unfold I64 at *; omega), ok_bind,
    useMin_ok ⟨by omega, by omega⟩ (by dsimp only; rw [Function.update_of_ne (by omega)]; exact hseg _ (by omega) (by omega)) (by unfold I64 at *; dsimp only; omega), ok_bind,
    useMax_ok ⟨by omega, by omega⟩ (by dsimp only; rw [Function.update_of_ne (by omega), Function.update_of_ne (by omega)]; exact hseg _ (by omega) (by omega))
      (by unfold I64 at *; dsimp only; omega), ok_bind,
    useMax_ok ⟨by omega, by omega⟩ (by dsimp only; rw [Function.update_of_ne (by omega), Function.update_of_ne (by omega), Function.update_of_ne (by omega)]
                                       exact hseg _ (by omega) (by omega)) (by unfold I64 at *; dsimp only; omega)]
  congr 1
  refine Hack.mk.injEq _ _ _ _ _ _ _ _ |>.mpr ⟨?_, ?_, by ring, by ring⟩
  · funext i
    simp only [Function.update_apply, put, five]
    have := hseg (probes l r 2) (by omega) (by omega)
    split_ifs <;> first | rfl | omega | (subst_vars; assumption)
  · funext i
    simp only [put]
    split_ifs <;> first | rfl | (subst_vars; rfl)

theorem myLess_no {mn mx b : Int} (h : b ≤ mx) : myLess mn mx (-1) b = false := by
  unfold myLess
  rw [if_neg (fun hh => hh.1 rfl), if_pos (by rfl)]
  exact decide_eq_false (by omega)

theorem myGreater_no {mn mx b : Int} (h : mn ≤ b) : myGreater mn mx (-1) b = false := by
  unfold myGreater
  rw [if_neg (fun hh => hh.1 rfl), if_pos (by rfl)]
  exact decide_eq_false (by omega)

theorem myLess_val {mn mx a b : Int} (ha : 0 ≤ a) (hb : 0 ≤ b) : myLess mn mx a b = decide (a < b) := by
  unfold myLess
  rw [if_pos ⟨by unfold NO_VALUE; omega, by unfold NO_VALUE; omega⟩]

theorem myGreater_val {mn mx a b : Int} (ha : 0 ≤ a) (hb : 0 ≤ b) : myGreater mn mx a b = decide (a > b) := by
  unfold myGreater
  rw [if_pos ⟨by unfold NO_VALUE; omega, by unfold NO_VALUE; omega⟩]

theorem skip_stop {f : Int → Int} {test : Int → Bool} {step i : Int} (hi : 0 ≤ i ∧ i < n) (h : test (f i) = false) (k : Nat) :
    skip n f test step (k + 1) i = .ok i := by
  rw [skip, rd_ok hi, ok_bind, h]
  rfl

/-- the state after exchanging two elements -/
def swapped (i j : Int) (st : Hack) : Hack :=
  ⟨Function.update (Function.update st.data i (st.data j)) j (st.data i), Function.update (Function.update st.p i (st.p j)) j (st.p i), st.mn, st.mx⟩

theorem partLoop_small {small large : Int → Bool} {F : Nat} {k less great : Int} {st : Hack} (hk : k ≤ great) (h : 0 ≤ k ∧ k < n) (h' : 0 ≤ less ∧ less < n)
    (hs : small (st.data k) = true) :
    partLoop n small large (F + 1) k less great st = partLoop n small large F (k + 1) (less + 1) great (swapped k less st) := by
  rw [partLoop, if_pos hk, rd_ok h, ok_bind]
  simp only [hs, if_true, swapBoth_ok h h', ok_bind, swapped]

theorem partLoop_large {small large : Int → Bool} {F : Nat} {k less great : Int} {st : Hack} (hk : k < great) (h : 0 ≤ k ∧ k < n) (h' : 0 ≤ great ∧ great < n)
    (hs : small (st.data k) = false) (hl : large (st.data k) = true) (hg : large (st.data great) = false) (hg' : small (st.data great) = false) :
    partLoop n small large (F + 1) k less great st = partLoop n small large F (k + 1) less (great - 1) (swapped k great st) := by
  rw [partLoop, if_pos hk.le, rd_ok h, ok_bind]
  simp only [hs, hl, Bool.false_eq_true, if_false, if_true]
  rw [lowerGreat, rd_ok h', ok_bind]
  simp only [hg, Bool.false_eq_true, if_false, ok_bind, swapBoth_ok h h', rd_ok h, Function.update_of_ne (show k ≠ great by omega), Function.update_self, hg', swapped]

/-- the partition of a segment with two values -/
theorem partition_ok {e0 e4 : Int} (hl : 0 ≤ l) (p0 : l + 1 < e0) (p1 : e0 < e4) (p2 : e4 < r - 1) (hr : r < n) {st : Hack}
    (hseg : ∀ i, l ≤ i → i ≤ r → i ≠ e0 → i ≠ e4 → st.data i = -1) (h0 : st.data e0 = mn) (h4 : st.data e4 = mx) (hm : 0 ≤ mn) (hmn : st.mn = mn + 2)
    (hmx : st.mx = mx - 2) (hlt : mn + 47 ≤ mx) :
    partition n l r (mn + 1) (mx - 1) st = .ok (l + 2, r - 2,
      ⟨Function.update (Function.update (Function.update (Function.update st.data e0 (-1)) (l + 1) mn) e4 (-1)) (r - 1) mx,
       Function.update (Function.update (Function.update (Function.update st.p e0 (st.p (l + 1))) (l + 1) (st.p e0)) e4 (st.p (r - 1))) (r - 1) (st.p e4), mn + 2, mx - 2⟩) := by
  obtain ⟨f, p, a, b⟩ := st
  dsimp only at *
  subst hmn hmx
  have sN : myLess (mn + 2) (mx - 2) (-1) (mn + 1) = false := myLess_no (by omega)
  have gN : myGreater (mn + 2) (mx - 2) (-1) (mx - 1) = false := myGreater_no (by omega)
  have s0 : myLess (mn + 2) (mx - 2) mn (mn + 1) = true := by rw [myLess_val (by omega) (by omega)]; exact decide_eq_true (by omega)
  have s4 : myLess (mn + 2) (mx - 2) mx (mn + 1) = false := by rw [myLess_val (by omega) (by omega)]; exact decide_eq_false (by omega)
  have g4 : myGreater (mn + 2) (mx - 2) mx (mx - 1) = true := by rw [myGreater_val (by omega) (by omega)]; exact decide_eq_true (by omega)
  unfold partition
  dsimp only
  rw [skip_stop ⟨by omega, by omega⟩ (by rw [hseg _ (by omega) (by omega) (by omega) (by omega)]; exact sN), ok_bind,
    skip_stop ⟨by omega, by omega⟩ (by rw [hseg _ (by omega) (by omega) (by omega) (by omega)]; exact gN), ok_bind]
  obtain ⟨m0, hm0⟩ : ∃ m : Nat, e0 = l + 1 + m := ⟨(e0 - (l + 1)).toNat, by omega⟩
  rw [partLoop_skip m0 (n + 1) (l + 1) (by omega) (by omega) (by omega) (by omega) (by
    intro i hi hi'
    dsimp only
    rw [hseg _ (by omega) (by omega) (by omega) (by omega)]
    exact ⟨sN, gN⟩), ← hm0]
  obtain ⟨F, hF⟩ : ∃ F, n + 1 - m0 = F + 1 := ⟨n - m0, by omega⟩
  rw [hF, partLoop_small (by omega) ⟨by omega, by omega⟩ ⟨by omega, by omega⟩ (by dsimp only; rw [h0]; exact s0)]
  unfold swapped
  dsimp only
  rw [h0, hseg (l + 1) (by omega) (by omega) (by omega) (by omega)]
  obtain ⟨m1, hm1⟩ : ∃ m : Nat, e4 = e0 + 1 + m := ⟨(e4 - (e0 + 1)).toNat, by omega⟩
  rw [partLoop_skip m1 F (e0 + 1) (by omega) (by omega) (by omega) (by omega) (by
    intro i hi hi'
    dsimp only
    rw [Function.update_of_ne (by omega), Function.update_of_ne (by omega), hseg _ (by omega) (by omega) (by omega) (by omega)]
    exact ⟨sN, gN⟩), ← hm1]
  obtain ⟨F', hF'⟩ : ∃ F', F - m1 = F' + 1 := ⟨F - m1 - 1, by omega⟩
  have d4 : Function.update (Function.update f e0 (-1)) (l + 1) mn e4 = mx := by
    rw [Function.update_of_ne (by omega), Function.update_of_ne (by omega), h4]
  have d5 : Function.update (Function.update f e0 (-1)) (l + 1) mn (r - 1) = -1 := by
    rw [Function.update_of_ne (by omega), Function.update_of_ne (by omega), hseg _ (by omega) (by omega) (by omega) (by omega)]
  rw [hF', partLoop_large (by omega) ⟨by omega, by omega⟩ ⟨by omega, by omega⟩ (by dsimp only; rw [d4]; exact s4) (by dsimp only; rw [d4]; exact g4)
    (by dsimp only; rw [d5]; exact gN) (by dsimp only; rw [d5]; exact sN)]
  unfold swapped
  dsimp only
  rw [d4, d5, Function.update_of_ne (show e4 ≠ l + 1 by omega), Function.update_of_ne (show e4 ≠ e0 by omega), Function.update_of_ne (show r - 1 ≠ l + 1 by omega),
    Function.update_of_ne (show r - 1 ≠ e0 by omega)]
  obtain ⟨m2, hm2⟩ : ∃ m : Nat, r - 1 = e4 + 1 + m := ⟨(r - 1 - (e4 + 1)).toNat, by omega⟩
  rw [partLoop_skip m2 F' (e4 + 1) (by omega) (by omega) (by omega) (by omega) (by
    intro i hi hi'
    dsimp only
    rw [Function.update_of_ne (by omega), Function.update_of_ne (by omega), Function.update_of_ne (by omega), Function.update_of_ne (by omega),
      hseg _ (by omega) (by omega) (by omega) (by omega)]
    exact ⟨sN, gN⟩), ← hm2]
  obtain ⟨F2, hF2⟩ : ∃ F2, F' - m2 = F2 + 1 := ⟨F' - m2 - 1, by omega⟩
  rw [hF2, partLoop, if_neg (by omega), show l + 1 + 1 = l + 2 by ring, show r - 1 - 1 = r - 2 by ring]

theorem level_ok (hl : 0 ≤ l) (hr : r < n) (hlen : 47 ≤ r - l + 1) {st : Hack} (hseg : ∀ i, l ≤ i → i ≤ r → st.data i = -1) (h0 : 0 ≤ st.mn)
    (h1 : I64 st.mn) (h2 : I64 st.mx) (h3 : st.mn + 47 ≤ st.mx) :
    level n l r st = .ok (l + 2, r - 2, st.mn + 1, st.mx - 1,
      ⟨layerData l r st.mn st.mx st.data, fun i => st.p (source l r i), st.mn + 2, st.mx - 2⟩) := by
  have hp := probes_places hl hr hlen
  have hU := useAll hp hseg h1 h2 h3
  have hI := insert_all hp h0 (show st.mn + 1 < st.mx - 3 by omega) (fun k => st.p (probes l r k)) st.data st.p
  have hp' := hp
  obtain ⟨l0, p0, p1, p2, p3, p4, p5, rn⟩ := hp
  obtain ⟨f, p, mn, mx⟩ := st
  unfold source
  generalize he : probes l r = e at *
  dsimp only at *
  unfold level
  simp only [he]
  rw [hU, ok_bind, hI, ok_bind]
  dsimp only
  simp only [rd_ok (places_in hp' (show 1 < 5 by omega)), rd_ok (places_in hp' (show 3 < 5 by omega)), ok_bind, put_at hp' _ _ (show 1 < 5 by omega),
    put_at hp' _ _ (show 3 < 5 by omega), five_at]
  unfold takePivots
  dsimp only
  simp only [rd_ok (show 0 ≤ l ∧ l < n by omega), rd_ok (show 0 ≤ r ∧ r < n by omega), wr_ok (places_in hp' (show 1 < 5 by omega)),
    wr_ok (places_in hp' (show 3 < 5 by omega)), ok_bind]
  have pl : ∀ v (g : Int → Int), put e v g l = g l := by intro v g; unfold put; split_ifs <;> first | rfl | omega
  have pr : ∀ v (g : Int → Int), put e v g r = g r := by intro v g; unfold put; split_ifs <;> first | rfl | omega
  have pr1 : ∀ v (g : Int → Int), put e v g (r - 1) = g (r - 1) := by intro v g; unfold put; split_ifs <;> first | rfl | omega
  have pl1 : ∀ v (g : Int → Int), put e v g (l + 1) = g (l + 1) := by intro v g; unfold put; split_ifs <;> first | rfl | omega
  simp only [put_update hp' _ _ (show 1 < 5 by omega), put_update hp' _ _ (show 3 < 5 by omega), (five_update _ _ _ _ _ _).2.1, (five_update _ _ _ _ _ _).2.2.2,
    pl, pr, hseg l (by omega) (by omega), hseg r (by omega) (by omega)]
  rw [partition_ok (n := n) (l := l) (r := r) (mn := mn) (mx := mx) (e0 := e 0) (e4 := e 4) hl p0 (by omega) p5 hr
    (by
      intro i hi hi' hn0 hn4
      dsimp only
      unfold put
      rw [if_neg hn0]
      simp only [five]
      split_ifs <;> first | rfl | omega | exact hseg i hi hi')
    (by exact put_at hp' _ _ (by omega)) (by exact put_at hp' _ _ (by omega)) h0 rfl rfl h3, ok_bind]
  dsimp only
  unfold placePivots
  simp only [show l + 2 - 1 = l + 1 by ring, show r - 2 + 1 = r - 1 by ring, wr_ok (show 0 ≤ l ∧ l < n by omega), wr_ok (show 0 ≤ r ∧ r < n by omega), rd_ok (show 0 ≤ l + 1 ∧ l + 1 < n by omega), rd_ok (show 0 ≤ r - 1 ∧ r - 1 < n by omega),
    wr_ok (show 0 ≤ l + 1 ∧ l + 1 < n by omega), wr_ok (show 0 ≤ r - 1 ∧ r - 1 < n by omega), ok_bind, pl1, pr1, put_at hp' _ _ (show 0 < 5 by omega),
    put_at hp' _ _ (show 4 < 5 by omega), five_at, Function.update_self, Function.update_of_ne (show l + 1 ≠ r - 1 by omega), Function.update_of_ne (show l + 1 ≠ e 4 by omega),
    Function.update_of_ne (show r - 1 ≠ l + 1 by omega), Function.update_of_ne (show r - 1 ≠ l by omega)]
  congr 1
  simp only [Prod.mk.injEq, true_and, Hack.mk.injEq, and_true]
  constructor
  · funext i
    simp only [Function.update_apply, put, five, layerData]
    split_ifs <;> first | rfl | omega | (rw [hseg _ (by omega) (by omega)])
  · funext i
    have hi : i = l ∨ i = l + 1 ∨ i = r - 1 ∨ i = r ∨ i = e 0 ∨ i = e 1 ∨ i = e 2 ∨ i = e 3 ∨ i = e 4 ∨
        (i ≠ l ∧ i ≠ l + 1 ∧ i ≠ r - 1 ∧ i ≠ r ∧ i ≠ e 0 ∧ i ≠ e 1 ∧ i ≠ e 2 ∧ i ≠ e 3 ∧ i ≠ e 4) := by omega
    simp only [Function.update_apply, put, five]
    rcases hi with rfl | rfl | rfl | rfl | rfl | rfl | rfl | rfl | rfl | ⟨_, _, _, _, _, _, _, _, _⟩ <;> simp (disch := omega) only [if_neg, if_true]

end

end ICPC.Archive
