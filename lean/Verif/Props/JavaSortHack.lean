import Verif.Lemmas.JavaSortHack
import Verif.Props.Shuffle

namespace ICPC.Archive

open Rand

theorem fillDown_ok {n : Nat} : ∀ (m : Nat) (i : Int) (st : Hack), 0 ≤ i - m + 1 → i < n → (∀ j, i - m < j → j ≤ i → st.data j = -1) → I64 st.mn → I64 (st.mn + m) →
    fillDown n m i st = .ok ⟨fun j => if i - m < j ∧ j ≤ i then st.mn + (i - j) else st.data j, st.p, st.mn + m, st.mx⟩
  | 0, i, st, _, _, _, _, _ => by
    rw [fillDown]
    congr 1
    obtain ⟨f, p, mn, mx⟩ := st
    simp only [Hack.mk.injEq, true_and, and_true]
    refine ⟨?_, by simp⟩
    funext j
    rw [if_neg (by push_cast; omega)]
  | m + 1, i, st, h0, hn, hd, h1, h2 => by
    push_cast at h0 hd h2
    have h3 : I64 (st.mn + 1) := by unfold I64 at *; omega
    rw [fillDown, useMin_ok ⟨by omega, hn⟩ (hd i (by omega) le_rfl) h3, ok_bind, fillDown_ok m (i - 1) _ (by omega) (by omega) (by
      intro j hj hj'
      dsimp only
      rw [Function.update_of_ne (by omega)]
      exact hd j (by omega) (by omega)) h3 (by dsimp only; rw [add_right_comm, add_assoc]; exact h2)]
    congr 1
    simp only [Hack.mk.injEq, true_and, and_true]
    refine ⟨?_, by push_cast; ring⟩
    funext j
    push_cast
    rcases eq_or_ne j i with rfl | hj
    · rw [if_neg (by omega), if_pos (by omega), Function.update_self]
      ring
    · rw [Function.update_of_ne hj]
      split_ifs <;> omega

/-- the vector of indices is a permutation -/
def PermOn (n : Nat) (p : Int → Int) : Prop := ((List.range n).map fun k : Nat => p k).Perm ((List.range n).map fun k : Nat => (k : Int))

theorem PermOn.of_inj {n : Nat} {p : Int → Int} (h : ∀ i : Int, 0 ≤ i → i < n → 0 ≤ p i ∧ p i < n)
    (h' : ∀ i j : Int, 0 ≤ i → i < n → 0 ≤ j → j < n → p i = p j → i = j) : PermOn n p := by
  have hd : ((List.range n).map fun k : Nat => p k).Nodup := by
    refine (List.nodup_map_iff_inj_on List.nodup_range).2 fun i hi j hj e => ?_
    rw [List.mem_range] at hi hj
    exact_mod_cast h' i j (by omega) (by omega) (by omega) (by omega) e
  refine (List.subperm_of_subset hd fun x hx => ?_).perm_of_length_le (by simp)
  simp only [List.mem_map, List.mem_range] at hx ⊢
  obtain ⟨k, hk, rfl⟩ := hx
  obtain ⟨ha, hb⟩ := h k (by omega) (by omega)
  exact ⟨(p k).toNat, by omega, by omega⟩

theorem PermOn.mem {n : Nat} {p : Int → Int} (h : PermOn n p) {i : Int} (h0 : 0 ≤ i) (h1 : i < n) : 0 ≤ p i ∧ p i < n := by
  have : p i ∈ (List.range n).map fun k : Nat => (k : Int) := h.mem_iff.1 (by
    simp only [List.mem_map, List.mem_range]
    exact ⟨i.toNat, by omega, by rw [Int.toNat_of_nonneg h0]⟩)
  simp only [List.mem_map, List.mem_range] at this
  obtain ⟨k, hk, e⟩ := this
  omega

theorem PermOn.inj {n : Nat} {p : Int → Int} (h : PermOn n p) {i j : Int} (h0 : 0 ≤ i) (h1 : i < n) (h2 : 0 ≤ j) (h3 : j < n) (e : p i = p j) : i = j := by
  have hd : ((List.range n).map fun k : Nat => p k).Nodup := h.nodup_iff.2 ((List.nodup_map_iff_inj_on List.nodup_range).2 fun i _ j _ e => by exact_mod_cast e)
  have := (List.nodup_map_iff_inj_on List.nodup_range).1 hd i.toNat (by rw [List.mem_range]; omega) j.toNat (by rw [List.mem_range]; omega)
    (by rw [Int.toNat_of_nonneg h0, Int.toNat_of_nonneg h2]; exact e)
  omega

theorem source_cases {l r : Int} (e : Nat → Int) (he : probes l r = e) (i : Int) :
    (i = l ∧ source l r i = e 4) ∨ (i = l + 1 ∧ source l r i = e 3) ∨ (i = r - 1 ∧ source l r i = e 1) ∨ (i = r ∧ source l r i = e 0) ∨
    (i = e 0 ∧ source l r i = l + 1) ∨ (i = e 1 ∧ source l r i = l) ∨ (i = e 3 ∧ source l r i = r) ∨ (i = e 4 ∧ source l r i = r - 1) ∨
    (i ≠ l ∧ i ≠ l + 1 ∧ i ≠ r - 1 ∧ i ≠ r ∧ i ≠ e 0 ∧ i ≠ e 1 ∧ i ≠ e 3 ∧ i ≠ e 4 ∧ source l r i = i) := by
  unfold source
  rw [he]
  split_ifs <;> simp [*]

theorem source_inv {l r : Int} {n : Nat} (hl : 0 ≤ l) (hr : r < n) (hlen : 47 ≤ r - l + 1) :
    (∀ i : Int, 0 ≤ i → i < n → 0 ≤ source l r i ∧ source l r i < n) ∧ ∀ i j, source l r i = source l r j → i = j := by
  have hp := probes_places hl hr hlen
  have hs := source_cases (l := l) (r := r)
  obtain ⟨l0, p0, p1, p2, p3, p4, p5, rn⟩ := hp
  generalize probes l r = e at *
  replace hs := hs e rfl
  constructor
  · intro i h0 h1
    have := hs i
    omega
  · intro i j h
    have h1 := hs i
    have h2 := hs j
    generalize source l r i = a at *
    generalize source l r j = b at *
    subst h
    rcases h1 with h1 | h1 | h1 | h1 | h1 | h1 | h1 | h1 | h1 <;> omega

theorem PermOn.source {l r : Int} {n : Nat} (hl : 0 ≤ l) (hr : r < n) (hlen : 47 ≤ r - l + 1) {p : Int → Int} (h : PermOn n p) :
    PermOn n fun i => p (source l r i) := by
  obtain ⟨h1, h2⟩ := source_inv hl hr hlen
  refine PermOn.of_inj (fun i hi hi' => h.mem (h1 i hi hi').1 (h1 i hi hi').2) ?_
  intro i j hi hi' hj hj' e
  exact h2 i j (h.inj (h1 i hi hi').1 (h1 i hi hi').2 (h1 j hj hj').1 (h1 j hj hj').2 e)

theorem segment_length (f : Int → Int) (l r : Int) : (segment f l r).length = (r - l + 1).toNat := by simp [segment]

theorem map_setSegment {f : Int → Int} (a m c : Nat) (s : List Int) (hs : s.length = m) :
    (List.range (a + m + c)).map (fun k : Nat => setSegment f a s k) =
    (List.range a).map (fun k : Nat => f k) ++ s ++ (List.range c).map fun k : Nat => f (a + m + k : Nat) := by
  rw [List.range_add, List.range_add, List.map_append, List.map_append, List.map_map, List.map_map]
  congr 1
  · congr 1
    · refine List.map_congr_left fun k hk => ?_
      rw [List.mem_range] at hk
      unfold setSegment
      rw [if_neg (by omega)]
    · refine List.ext_getElem (by simp [hs]) fun i hi hi' => ?_
      simp only [List.getElem_map, List.getElem_range, Function.comp, setSegment]
      rw [if_pos (by push_cast; omega), show ((a + i : Nat) - (a : Int)).toNat = i by omega, List.getD_eq_getElem?_getD, List.getElem?_eq_getElem hi']
      rfl
  · refine List.map_congr_left fun k hk => ?_
    simp only [Function.comp, setSegment]
    rw [if_neg (by rw [hs]; omega)]

theorem map_segment {f : Int → Int} (a m c : Nat) :
    (List.range (a + m + c)).map (fun k : Nat => f k) =
    (List.range a).map (fun k : Nat => f k) ++ segment f a (a + m - 1) ++ (List.range c).map fun k : Nat => f (a + m + k : Nat) := by
  rw [List.range_add, List.range_add, List.map_append, List.map_append, List.map_map, List.map_map]
  congr 1
  congr 1
  unfold segment
  rw [show ((a : Int) + m - 1 - a + 1).toNat = m by omega]
  exact List.map_congr_left fun k _ => by simp

theorem PermOn.set {n : Nat} {l r : Int} {p : Int → Int} (h : PermOn n p) (hl : 0 ≤ l) (hlr : l ≤ r + 1) (hr : r < n) {s : List Int} (hs : s.Perm (segment p l r)) :
    PermOn n (setSegment p l s) := by
  obtain ⟨a, rfl⟩ := Int.eq_ofNat_of_zero_le hl
  obtain ⟨m, hm⟩ : ∃ m : Nat, r = a + m - 1 := ⟨(r - a + 1).toNat, by omega⟩
  obtain ⟨c, rfl⟩ : ∃ c, n = a + m + c := ⟨n - (a + m), by omega⟩
  subst hm
  have hlen : s.length = m := by rw [hs.length_eq, segment_length]; omega
  refine List.Perm.trans ?_ h
  rw [map_setSegment a m c s hlen, map_segment a m c]
  exact (hs.append_left _).append_right _

theorem sort_down (mn : Int) (m : Nat) : (((List.range m).map fun k : Nat => mn + (m - 1 - k : Int)).insertionSort (· ≤ ·)) = (List.range m).map fun k : Nat => mn + (k : Int) := by
  refine ((List.perm_insertionSort _ _).trans ?_).eq_of_sortedLE List.sortedLE_insertionSort ?_
  · have : ((List.range m).map fun k : Nat => mn + (m - 1 - k : Int)) = ((List.range m).map fun k : Nat => mn + (k : Int)).reverse := by
      refine List.ext_getElem (by simp) fun i hi hi' => ?_
      simp only [List.length_map, List.length_range] at hi
      simp only [List.getElem_map, List.getElem_range, List.getElem_reverse, List.length_map, List.length_range]
      omega
    rw [this]
    exact List.reverse_perm _
  · refine List.Pairwise.sortedLE ?_
    rw [List.pairwise_map]
    exact List.pairwise_lt_range.imp fun h => by omega

theorem short_fill {n : Nat} {l r : Int} (hl : 0 ≤ l) (hlr : l ≤ r + 1) (hr : r < n) (hs : r - l + 1 < 47) {st : Hack}
    (hseg : ∀ i, l ≤ i → i ≤ r → st.data i = -1) (h1 : I64 st.mn) (h2 : I64 (st.mn + (r - l + 1))) (hp : PermOn n st.p) :
    SatOk (short n l r st) fun st' => (∀ i, st'.data i = if l ≤ i ∧ i ≤ r then st.mn + (i - l) else st.data i) ∧ PermOn n st'.p := by
  obtain ⟨m, hm⟩ : ∃ m : Nat, r = l + m - 1 := ⟨(r - l + 1).toNat, by omega⟩
  have hm' : (r - l + 1).toNat = m := by omega
  unfold short
  rw [hm', fillDown_ok m r st (by omega) hr (fun j hj hj' => hseg j (by omega) hj') h1 (by rw [show (m : Int) = r - l + 1 by omega]; exact h2),
    lift_ok, bind_done_ok]
  dsimp only
  have e : segment (fun j => if r - m < j ∧ j ≤ r then st.mn + (r - j) else st.data j) l r = (List.range m).map fun k : Nat => st.mn + (m - 1 - k : Int) := by
    unfold segment
    rw [hm']
    refine List.map_congr_left fun k hk => ?_
    rw [List.mem_range] at hk
    beta_reduce
    rw [if_pos (by omega)]
    omega
  rw [e, sort_down]
  refine SatOk.bind (Props.C03_shuffle_perm _ (by rw [segment_length]; omega)) fun s hsp => ?_
  refine satOk_done ⟨fun i => ?_, hp.set hl hlr hr hsp⟩
  dsimp only [setSegment]
  simp only [List.length_map, List.length_range]
  by_cases hi : l ≤ i ∧ i ≤ r
  · rw [if_pos (by omega), if_pos hi, List.getD_eq_getElem?_getD, List.getElem?_eq_getElem (by simp; omega)]
    simp only [List.getElem_map, List.getElem_range, Option.getD_some]
    omega
  · rw [if_neg (by omega), if_neg hi, if_neg (by omega)]

theorem short_single {n : Nat} {l : Int} (hl : 0 ≤ l) (hr : l < n) {st : Hack} (h : st.data l ≠ -1) : short n l l st = pure st := by
  have e : ∀ f : Int → Int, segment f l l = [f l] := by
    intro f
    unfold segment
    rw [show (l - l + 1).toNat = 1 by omega]
    simp
  have e' : ∀ f : Int → Int, setSegment f l [f l] = f := by
    intro f
    funext i
    unfold setSegment
    split_ifs with hi
    · simp only [List.length_singleton, Nat.cast_one] at hi
      obtain rfl : i = l := by omega
      simp
    · rfl
  unfold short
  rw [show (l - l + 1).toNat = 1 by omega, fillDown, useMin, rd_ok ⟨hl, hr⟩, ok_bind, if_neg (show ¬ st.data l = NO_VALUE from h), ok_bind, fillDown, lift_ok, bind_done_ok, e]
  rw [e]
  unfold shuffle
  rw [show ([st.p l].length - 1) = 0 from rfl, shuffleLoop]
  rw [pure_def, bind_done_ok, List.insertionSort_cons, List.insertionSort_nil]
  dsimp only [List.orderedInsert]
  rw [e', e']

/-- **The whole sort.** -/
theorem hackedSort_sat {n : Nat} : ∀ (F : Nat) (l r : Int) (m : Nat) (st : Hack), r = l + m - 1 → m < F → 0 ≤ l → r < n → (∀ i, l ≤ i → i ≤ r → st.data i = -1) →
    I64 st.mn → I64 st.mx → st.mx = st.mn + m → (47 ≤ m → 0 ≤ st.mn) → PermOn n st.p →
    SatOk (hackedSort n F l r st) fun st' =>
      (∀ i, st'.data i = if l ≤ i ∧ i ≤ r then st.mn + (i - l) + (if i - l < m - 2 * ((m - 43) / 4 : Nat) then 0 else 1) else st.data i) ∧ PermOn n st'.p
  | 0, _, _, _, _, _, h, _, _, _, _, _, _, _, _ => by omega
  | F + 1, l, r, m, st, hr, hF, hl, hrn, hseg, h1, h2, hmx, h0, hp => by
    rw [hackedSort]
    unfold INSERTION_SORT_THRESHOLD
    by_cases hs : r - l + 1 < 47
    · rw [if_pos hs]
      refine (short_fill hl (by omega) hrn hs hseg h1 (by rw [show st.mn + (r - l + 1) = st.mx by omega]; exact h2) hp).mono fun st' ⟨ha, hb⟩ => ⟨fun i => ?_, hb⟩
      rw [ha i]
      split_ifs <;> omega
    · rw [if_neg hs]
      have h0' := h0 (by omega)
      rw [level_ok hl hrn (by omega) hseg h0' h1 h2 (by omega), lift_ok, bind_done_ok]
      obtain ⟨F, rfl⟩ : ∃ F', F = F' + 1 := ⟨F - 1, by omega⟩
      obtain ⟨f, p, mn, mx⟩ := st
      dsimp only at *
      have d1 : layerData l r mn mx f l = mn := if_pos rfl
      have d2 : layerData l r mn mx f r = mx := by
        unfold layerData
        rw [if_neg (by omega), if_neg (by omega), if_neg (by omega), if_pos rfl]
      have d3 : ∀ i, l + 2 ≤ i → i ≤ r - 2 → layerData l r mn mx f i = -1 := by
        intro i hi hi'
        unfold layerData
        rw [if_neg (by omega), if_neg (by omega), if_neg (by omega), if_neg (by omega), hseg i (by omega) (by omega)]
      rw [show l + 2 - 2 = l by ring, show r - 2 + 2 = r by ring]
      rw [hackedSort, INSERTION_SORT_THRESHOLD, if_pos (by omega), short_single hl (by omega) (by dsimp only; rw [d1]; omega), pure_def, bind_done_ok,
        hackedSort, INSERTION_SORT_THRESHOLD, if_pos (by omega), short_single (by omega) hrn (by dsimp only; rw [d2]; omega), pure_def, bind_done_ok]
      have hB : (if l + 2 < probes l r 0 ∧ probes l r 4 < r - 2 then
          partLoop n (fun v => decide (v = mn + 1)) (fun v => decide (v = mx - 1)) (n + 1) (l + 2) (l + 2) (r - 2)
            ⟨layerData l r mn mx f, fun i => p (source l r i), mn + 2, mx - 2⟩
        else .ok (l + 2, r - 2, ⟨layerData l r mn mx f, fun i => p (source l r i), mn + 2, mx - 2⟩)) =
          .ok (l + 2, r - 2, ⟨layerData l r mn mx f, fun i => p (source l r i), mn + 2, mx - 2⟩) := by
        split_ifs
        · rw [partLoop_skip (m - 4) (n + 1) (l + 2) (by omega) (by omega) (by omega) (by omega) (by
            intro i hi hi'
            have := d3 i hi (by omega)
            exact ⟨decide_eq_false (by dsimp only; omega), decide_eq_false (by dsimp only; omega)⟩)]
          obtain ⟨F2, hF2⟩ : ∃ F2, n + 1 - (m - 4) = F2 + 1 := ⟨n - (m - 4), by omega⟩
          rw [hF2, partLoop, if_neg (by omega)]
        · rfl
      rw [hB, lift_ok, bind_done_ok]
      dsimp only
      refine (hackedSort_sat (F + 1) (l + 2) (r - 2) (m - 4) _ (by omega) (by omega) (by omega) (by omega) d3 (by unfold I64 at *; dsimp only; omega)
        (by unfold I64 at *; dsimp only; omega) (by dsimp only; omega) (by intro _; dsimp only; omega) (hp.source hl hrn (by omega))).mono fun st' ⟨ha, hb⟩ => ⟨fun i => ?_, hb⟩
      rw [ha i]
      dsimp only [layerData]
      split_ifs <;> omega

theorem unshuffle_ok {n : Nat} {st : Hack} (hp : PermOn n st.p) : ∀ k : Nat, k ≤ n → ∀ tmp, ∃ t, unshuffle n st k tmp = .ok t ∧ ∀ i : Int, 0 ≤ i → i < k → t (st.p i) = st.data i
  | 0, _, tmp => ⟨tmp, rfl, fun i h h' => by omega⟩
  | k + 1, hk, tmp => by
    obtain ⟨t, e, ht⟩ := unshuffle_ok hp k (by omega) tmp
    have hin : 0 ≤ (k : Int) ∧ (k : Int) < n := by omega
    refine ⟨_, by rw [unshuffle, e, ok_bind, rd_ok hin, ok_bind, rd_ok hin, ok_bind, wr_ok (hp.mem hin.1 hin.2)], fun i h h' => ?_⟩
    rcases eq_or_ne i k with rfl | hne
    · rw [Function.update_self]
    · rw [Function.update_of_ne (fun hh => hne (hp.inj h (by omega) hin.1 hin.2 hh)), ht i h (by push_cast at h'; omega)]

theorem permOn_id (n : Nat) : PermOn n fun i => i := List.Perm.refl _

/-- The result in terms of its values: in some order `mi, mi + 1, ...`, without one number. -/
theorem javaSortHack_sat (n : Nat) (mi : Int) (h1 : I64 mi) (h2 : I64 (mi + n)) (h0 : 47 ≤ n → 0 ≤ mi) :
    SatOk (javaSortHack n mi) fun l => l.Perm ((List.range n).map fun k : Nat => mi + k + if (k : Int) < n - 2 * ((n - 43) / 4 : Nat) then 0 else 1) := by
  unfold javaSortHack
  rw [decide_eq_true (by omega), judgeAssert_true, lift_ok, bind_done_ok, chk_ok h2, lift_ok, bind_done_ok, Int.toNat_natCast]
  refine SatOk.bind (hackedSort_sat (n := n) (n + 1) 0 (n - 1) n _ (by omega) (by omega) le_rfl (by omega) (fun i _ _ => rfl) h1 h2 rfl h0 (permOn_id n)) ?_
  rintro st ⟨hd, hp⟩
  obtain ⟨t, e, ht⟩ := unshuffle_ok hp n le_rfl fun _ => 0
  rw [e, lift_ok, bind_done_ok]
  refine satOk_done ?_
  have e1 : segment t 0 (n - 1) = ((List.range n).map fun k : Nat => (k : Int)).map t := by
    unfold segment
    rw [show ((n : Int) - 1 - 0 + 1).toNat = n by omega, List.map_map]
    exact List.map_congr_left fun k _ => by simp
  rw [e1]
  refine (hp.symm.map t).trans ?_
  rw [List.map_map]
  refine List.Perm.of_eq (List.map_congr_left fun k hk => ?_)
  rw [List.mem_range] at hk
  show t (st.p k) = _
  rw [ht k (by omega) (by omega), hd k, if_pos (by omega)]
  simp

end ICPC.Archive

namespace ICPC.Props

open Archive

/-- **C103.** For every outcome of the draws and every minimum that is not negative, `HackedSort(n, mi)` ends; its `n` values are different, and they
are all of `mi, ..., mi + n` but one. -/
theorem C103_values (n : Nat) (mi : Int) (h0 : 0 ≤ mi) (h2 : I64 (mi + n)) :
    SatOk (javaSortHack n mi) fun l => l.length = n ∧ l.Nodup ∧ ∀ v, v ∈ l ↔ mi ≤ v ∧ v ≤ mi + n ∧ v ≠ mi + n - 2 * ((n - 43) / 4 : Nat) := by
  refine (javaSortHack_sat n mi (by unfold I64 at *; omega) h2 fun _ => h0).mono fun l hl => ⟨by rw [hl.length_eq]; simp, hl.nodup_iff.2 ?_, fun v => ?_⟩
  · refine (List.nodup_map_iff_inj_on List.nodup_range).2 fun i _ j _ e => ?_
    beta_reduce at e
    split_ifs at e <;> omega
  · rw [hl.mem_iff]
    simp only [List.mem_map, List.mem_range]
    constructor
    · rintro ⟨k, hk, rfl⟩
      split_ifs <;> omega
    · rintro ⟨ha, hb, hc⟩
      by_cases hv : v < mi + n - 2 * ((n - 43) / 4 : Nat)
      · exact ⟨(v - mi).toNat, by omega, by rw [if_pos (by omega)]; omega⟩
      · exact ⟨(v - mi - 1).toNat, by omega, by rw [if_neg (by omega)]; omega⟩

/-- **C103.** Up to 46 values the result is a permutation of `mi, ..., mi + n - 1`, whatever the minimum is. -/
theorem C103_short (n : Nat) (mi : Int) (hn : n < 47) (h1 : I64 mi) (h2 : I64 (mi + n)) :
    SatOk (javaSortHack n mi) fun l => l.Perm ((List.range n).map fun k : Nat => mi + k) := by
  refine (javaSortHack_sat n mi h1 h2 fun h => by omega).mono fun l hl => hl.trans (List.Perm.of_eq (List.map_congr_left fun k hk => ?_))
  rw [List.mem_range] at hk
  rw [if_pos (by omega), add_zero]

/-- **C103, refuted.** From 47 values on the result is never a permutation of `mi, ..., mi + n - 1`: it contains `mi + n`. -/
theorem C103_permutation_refuted (n : Nat) (mi : Int) (hn : 47 ≤ n) (h0 : 0 ≤ mi) (h2 : I64 (mi + n)) :
    SatOk (javaSortHack n mi) fun l => mi + n ∈ l ∧ ¬ l.Perm ((List.range n).map fun k : Nat => mi + k) := by
  refine (C103_values n mi h0 h2).mono fun l ⟨_, _, hl⟩ => ?_
  have hm : mi + n ∈ l := (hl _).2 ⟨by omega, le_rfl, by omega⟩
  refine ⟨hm, fun hp => ?_⟩
  have := hp.mem_iff.1 hm
  simp only [List.mem_map, List.mem_range] at this
  obtain ⟨k, hk, e⟩ := this
  omega

/-- **C103, refuted.** With a negative minimum the number -1 is taken for a missing value; here 57 of the 60 values are -1. -/
theorem C103_negative_refuted :
    (((javaSortHack 60 (-1)).run true (List.replicate 100 (2 ^ 63 + 5))).bind fun x => x.1.toOption).map (fun l => (l.length, l.count (-1))) = some (60, 57) := by
  decide +kernel

/-- **C103.** A negative length throws. -/
theorem C103_throws (n mi : Int) (h : n < 0) : javaSortHack n mi = .done (.error .throw) := by
  unfold javaSortHack
  rw [decide_eq_false (by omega)]
  rfl

/-- A result for `n = 47`: the value 48 occurs, 46 does not. -/
example : (((javaSortHack 47 1).run true (List.replicate 100 (2 ^ 63 + 5))).bind fun x => x.1.toOption).map (fun l => (l.length, l.count 48, l.count 46)) =
    some (47, 1, 0) := by decide +kernel

end ICPC.Props
