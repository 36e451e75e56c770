import Verif.Spec.Bracket
import Verif.Props.Distinct
import Mathlib.Combinatorics.Enumerative.Catalan.Basic
import Mathlib.Tactic.LinearCombination
import Mathlib.Tactic.FieldSimp

/-!
# C09: `Random::bracketSequence`
-/

namespace ICPC.Props
open ICPC ICPC.Spec

/-- `d` more closing than opening brackets, never less than zero open ones. -/
def completes (opn cls : Char) : Nat → List Char → Prop
  | d, [] => d = 0
  | d, x :: s => (x = opn ∧ completes opn cls (d + 1) s) ∨ (x = cls ∧ 0 < d ∧ completes opn cls (d - 1) s)

theorem completes_append {opn cls : Char} {s : List Char} (h : Balanced opn cls s) : ∀ (d : Nat) (t : List Char),
    completes opn cls d t → completes opn cls d (s ++ t) := by
  induction h with
  | nil => intro d t h; exact h
  | pair _ _ ih1 ih2 =>
    intro d t h
    have h2 := ih2 d t h
    refine .inl ⟨rfl, ?_⟩
    show completes opn cls (d + 1) (_ ++ t)
    rw [List.append_assoc]
    exact ih1 (d + 1) _ (.inr ⟨rfl, by omega, by simpa using h2⟩)

theorem completes_of_balanced {opn cls : Char} {s : List Char} (h : Balanced opn cls s) : completes opn cls 0 s := by
  have := completes_append h 0 [] rfl
  simpa using this

theorem completes_split {opn cls : Char} : ∀ (n : Nat) (s : List Char) (d : Nat), s.length = n → completes opn cls d s →
    (d = 0 → Balanced opn cls s) ∧ (∀ d', d = d' + 1 → ∃ w t, s = w ++ cls :: t ∧ Balanced opn cls w ∧ completes opn cls d' t) := by
  intro n
  induction n using Nat.strong_induction_on with
  | _ n ih =>
    intro s d hn h
    cases s with
    | nil =>
      cases h
      exact ⟨fun _ => .nil, fun d' h => by omega⟩
    | cons x s =>
      simp only [List.length_cons] at hn
      rcases h with ⟨rfl, h⟩ | ⟨rfl, h0, h⟩
      · obtain ⟨w, t, rfl, hw, ht⟩ := (ih s.length (by omega) s (d + 1) rfl h).2 d rfl
        simp only [List.length_append, List.length_cons] at hn
        have iht := ih t.length (by omega) t d rfl ht
        refine ⟨fun h0 => .pair hw (iht.1 h0), fun d' hd => ?_⟩
        obtain ⟨w', t', rfl, hw', ht'⟩ := iht.2 d' hd
        exact ⟨x :: (w ++ cls :: w'), t', by simp, .pair hw hw', ht'⟩
      · refine ⟨fun h0' => by omega, fun d' hd => ⟨[], s, rfl, .nil, ?_⟩⟩
        subst hd; simpa using h

theorem balanced_of_completes {opn cls : Char} {s : List Char} (h : completes opn cls 0 s) : Balanced opn cls s :=
  (completes_split s.length s 0 rfl h).1 rfl

/-- One step of the loop with `k` opening and `m` closing brackets to go. -/
theorem bracketLoop_step {n : Int} (opn cls : Char) (hn : n ≤ 0x7FFFFFFF) {k m r : Nat} (hr : r + 1 = k + m) (hkm : k ≤ m)
    (hm : (m : Int) ≤ n) :
    bracketLoop n opn cls (r + 1) ((m : Int) - k) =
      integer 0 (((r : Int) + 1) * ((m : Int) - k + 1)) >>= fun x =>
        if x < (k : Int) * ((m : Int) - k + 2) then
          bracketLoop n opn cls r ((m : Int) - k + 1) >>= fun rest => pure (opn :: rest)
        else
          bracketLoop n opn cls r ((m : Int) - k - 1) >>= fun rest => pure (cls :: rest) := by
  conv_lhs => unfold bracketLoop
  dsimp only
  have hopened : (2 * n - ((r : Int) + 1) + ((m : Int) - k)).tdiv 2 = n - k := by
    have : 2 * n - ((r : Int) + 1) + ((m : Int) - k) = 2 * (n - k) := by omega
    rw [this, Int.mul_tdiv_cancel_left _ (by omega)]
  have h1 : 2 * n - (2 * n - ((r : Int) + 1)) = (r : Int) + 1 := by ring
  have h2 : n - (n - (k : Int)) = k := by ring
  rw [hopened, h1, h2]
  have b1 : ((r : Int) + 1) * ((m : Int) - k + 1) ≤ (2 * 0x7FFFFFFF) * (0x7FFFFFFF + 1) :=
    Int.mul_le_mul (by omega) (by omega) (by omega) (by omega)
  have b2 : (k : Int) * ((m : Int) - k + 2) ≤ 0x7FFFFFFF * (0x7FFFFFFF + 2) :=
    Int.mul_le_mul (by omega) (by omega) (by omega) (by omega)
  have b3 : 0 ≤ ((r : Int) + 1) * ((m : Int) - k + 1) := Int.mul_nonneg (by omega) (by omega)
  have b4 : 0 ≤ (k : Int) * ((m : Int) - k + 2) := Int.mul_nonneg (by omega) (by omega)
  rw [chk_ok (i64_mk (by omega) (by omega)), Rand.lift_ok, Rand.bind_done_ok, chk_ok (i64_mk (by omega) (by omega)),
    Rand.lift_ok, Rand.bind_done_ok]

theorem bracket_total_i64 {n : Int} (hn : n ≤ 0x7FFFFFFF) {k m r : Nat} (hr : r + 1 = k + m) (hkm : k ≤ m)
    (hm : (m : Int) ≤ n) : I64 (((r : Int) + 1) * ((m : Int) - k + 1)) ∧ 0 < ((r : Int) + 1) * ((m : Int) - k + 1) := by
  have b1 : ((r : Int) + 1) * ((m : Int) - k + 1) ≤ (2 * 0x7FFFFFFF) * (0x7FFFFFFF + 1) :=
    Int.mul_le_mul (by omega) (by omega) (by omega) (by omega)
  have b3 : 0 < ((r : Int) + 1) * ((m : Int) - k + 1) := Int.mul_pos (by omega) (by omega)
  exact ⟨i64_mk (by omega) (by omega), b3⟩

theorem bracketLoop_sat {n : Int} (opn cls : Char) (hn : n ≤ 0x7FFFFFFF) : ∀ (r k m : Nat), r = k + m → k ≤ m → (m : Int) ≤ n →
    SatOk (bracketLoop n opn cls r ((m : Int) - k)) fun s => s.length = r ∧ completes opn cls (m - k) s := by
  intro r
  induction r with
  | zero =>
    intro k m h1 h2 h3
    exact satOk_done ⟨rfl, by show m - k = 0; omega⟩
  | succ r ih =>
    intro k m h1 h2 h3
    obtain ⟨hI, hpos⟩ := bracket_total_i64 hn h1 h2 h3
    rw [bracketLoop_step opn cls hn h1 h2 h3]
    apply sat_integer_bind i64_zero hI hpos
    intro x hx1 hx2
    by_cases hx : x < (k : Int) * ((m : Int) - k + 2)
    · rw [if_pos hx]
      have hk : 0 < k := by
        rcases Nat.eq_zero_or_pos k with rfl | h
        · simp at hx; omega
        · exact h
      have := ih (k - 1) m (by omega) (by omega) h3
      rw [show (m : Int) - ((k - 1 : Nat) : Int) = (m : Int) - k + 1 by omega] at this
      refine SatOk.bind this fun s hs => ?_
      refine satOk_done ⟨by simp [hs.1], .inl ⟨rfl, ?_⟩⟩
      rw [show m - k + 1 = m - (k - 1) by omega]; exact hs.2
    · rw [if_neg hx]
      have hkm : k < m := by
        by_contra hc
        have : k = m := by omega
        subst this
        apply hx
        have e : (k : Int) * ((k : Int) - k + 2) = ((r : Int) + 1) * ((k : Int) - k + 1) := by
          have : (r : Int) + 1 = k + k := by omega
          rw [this]; ring
        omega
      have := ih k (m - 1) (by omega) (by omega) (by omega)
      rw [show ((m - 1 : Nat) : Int) - (k : Int) = (m : Int) - k - 1 by omega] at this
      refine SatOk.bind this fun s hs => ?_
      refine satOk_done ⟨by simp [hs.1], .inr ⟨rfl, by omega, ?_⟩⟩
      rw [show m - k - 1 = m - 1 - k by omega]; exact hs.2

/-- Number of ways to complete a sequence with `k` opening and `m` closing brackets to go. -/
def ballot (k m : Nat) : ℚ := ((m : ℚ) - k + 1) / (m + 1) * ((k + m).choose k : ℚ)

theorem ballot_open (k m : Nat) : ballot (k + 1) m * ((k + 1 : ℚ) * ((m : ℚ) - (k + 1) + 2)) =
    ballot k m * ((k + m + 1 : ℚ) * ((m : ℚ) - (k + 1) + 1)) := by
  have h : (((k + 1 + m).choose (k + 1) : Nat) : ℚ) * (k + 1) = ((k + m).choose k : ℚ) * (k + m + 1) := by
    have := Nat.add_one_mul_choose_eq (k + m) k
    rw [show k + 1 + m = k + m + 1 by ring]
    have h' : ((k + m + 1) * (k + m).choose k : ℚ) = ((k + m + 1).choose (k + 1) : ℚ) * (k + 1) := by exact_mod_cast this
    rw [← h']; ring
  unfold ballot
  push_cast
  calc _ = ((m : ℚ) - (k + 1) + 1) / (m + 1) * (m - (k + 1) + 2) * ((((k + 1 + m).choose (k + 1) : Nat) : ℚ) * (k + 1)) := by ring
    _ = _ := by rw [h]; ring

theorem ballot_close (k m : Nat) : ballot k (m + 1) * ((k + m + 1 : ℚ) * ((m : ℚ) + 1 - k + 1) - k * ((m : ℚ) + 1 - k + 2)) =
    ballot k m * ((k + m + 1 : ℚ) * ((m : ℚ) + 1 - k + 1)) := by
  have h : (((k + (m + 1)).choose k : Nat) : ℚ) * (m + 1) = ((k + m).choose k : ℚ) * (k + m + 1) := by
    have := Nat.choose_mul_succ_eq (k + m) k
    rw [show k + m + 1 - k = m + 1 by omega] at this
    have h' : (((k + m).choose k : Nat) : ℚ) * (k + m + 1) = ((k + m + 1).choose k : ℚ) * (m + 1) := by exact_mod_cast this
    rw [show k + (m + 1) = k + m + 1 by ring, ← h']
  unfold ballot
  push_cast
  have e : ((k + m + 1 : ℚ) * ((m : ℚ) + 1 - k + 1) - k * ((m : ℚ) + 1 - k + 2)) = (m - k + 1) * (m + 2) := by ring
  rw [e]
  have hm1 : (m : ℚ) + 1 ≠ 0 := by positivity
  have hm2 : (m : ℚ) + 1 + 1 ≠ 0 := by positivity
  have hc : (((k + (m + 1)).choose k : Nat) : ℚ) = ((k + m).choose k : ℚ) * (k + m + 1) / (m + 1) := by
    rw [← h]; field_simp
  rw [hc]
  field_simp
  ring

theorem ballot_pos {k m : Nat} (h : k ≤ m) : 0 < ballot k m := by
  unfold ballot
  have : (k : ℚ) ≤ m := by exact_mod_cast h
  have h1 : 0 < (m : ℚ) - k + 1 := by linarith
  have h2 : (0 : ℚ) < (k + m).choose k := by exact_mod_cast Nat.choose_pos (by omega)
  exact mul_pos (div_pos h1 (by positivity)) h2

theorem sum_ico_ite (g T : Int) (h0 : 0 ≤ g) (hg : g ≤ T) (a b : ℚ) :
    (∑ x ∈ Finset.Ico 0 T, if x < g then a else b) = g * a + (T - g) * b := by
  rw [Finset.sum_ite, Finset.sum_const, Finset.sum_const]
  have e1 : (Finset.Ico 0 T).filter (fun x => x < g) = Finset.Ico 0 g := by ext; simp; omega
  have e2 : (Finset.Ico 0 T).filter (fun x => ¬ x < g) = Finset.Ico g T := by ext; simp; omega
  rw [e1, e2, Int.card_Ico, Int.card_Ico, nsmul_eq_mul, nsmul_eq_mul]
  have c1 : (((g - 0).toNat : Nat) : ℚ) = g := by
    have : (((g - 0).toNat : Nat) : Int) = g := by omega
    exact_mod_cast congrArg (Int.cast : Int → ℚ) this
  have c2 : (((T - g).toNat : Nat) : ℚ) = T - g := by
    have : (((T - g).toNat : Nat) : Int) = T - g := by omega
    exact_mod_cast congrArg (Int.cast : Int → ℚ) this
  rw [c1, c2]

theorem bracketLoop_prob {n : Int} {opn cls : Char} (hne : opn ≠ cls) (hn : n ≤ 0x7FFFFFFF) : ∀ (r k m : Nat) (s : List Char),
    r = k + m → k ≤ m → (m : Int) ≤ n → s.length = r → completes opn cls (m - k) s →
    prob (bracketLoop n opn cls r ((m : Int) - k)) s = 1 / ballot k m := by
  intro r
  induction r with
  | zero =>
    intro k m s h1 h2 h3 hs _
    have : k = 0 := by omega
    have : m = 0 := by omega
    subst k m
    rw [List.length_eq_zero_iff.1 hs]
    show prob (.done (.ok [])) [] = _
    rw [prob_done]; simp [ballot]
  | succ r ih =>
    intro k m s h1 h2 h3 hs hc
    obtain ⟨hI, hpos⟩ := bracket_total_i64 hn h1 h2 h3
    rw [bracketLoop_step opn cls hn h1 h2 h3, prob_bind, expect_integer i64_zero hI hpos]
    have hg0 : 0 ≤ (k : Int) * ((m : Int) - k + 2) := Int.mul_nonneg (by omega) (by omega)
    have hgT : (k : Int) * ((m : Int) - k + 2) ≤ ((r : Int) + 1) * ((m : Int) - k + 1) := by
      have e : ((r : Int) + 1) * ((m : Int) - k + 1) - (k : Int) * ((m : Int) - k + 2) = ((m : Int) - k) * (m + 1) := by
        have : (r : Int) + 1 = k + m := by omega
        rw [this]; ring
      have : 0 ≤ ((m : Int) - k) * (m + 1) := Int.mul_nonneg (by omega) (by omega)
      omega
    cases s with
    | nil => simp at hs
    | cons c s =>
      have hsl : s.length = r := by simpa using hs
      have e : ∀ x ∈ Finset.Ico (0 : Int) (((r : Int) + 1) * ((m : Int) - k + 1)),
          prob (if x < (k : Int) * ((m : Int) - k + 2) then
            bracketLoop n opn cls r ((m : Int) - k + 1) >>= fun rest => pure (opn :: rest)
          else bracketLoop n opn cls r ((m : Int) - k - 1) >>= fun rest => (pure (cls :: rest) : Rand (List Char))) (c :: s) =
          if x < (k : Int) * ((m : Int) - k + 2) then (if opn = c then prob (bracketLoop n opn cls r ((m : Int) - k + 1)) s else 0)
            else (if cls = c then prob (bracketLoop n opn cls r ((m : Int) - k - 1)) s else 0) := by
        intro x _
        split
        · rw [prob_bind_cons]
        · rw [prob_bind_cons]
      rw [Finset.sum_congr rfl e, sum_ico_ite _ _ hg0 hgT]
      have hb := ballot_pos h2
      have hTq : (0 : ℚ) < ((((r : Int) + 1) * ((m : Int) - k + 1) : Int) : ℚ) := by exact_mod_cast hpos
      have hrq : (r : ℚ) + 1 = k + m := by exact_mod_cast h1
      rcases hc with ⟨rfl, hc⟩ | ⟨rfl, hd, hc⟩
      · rw [if_pos rfl, if_neg hne.symm, mul_zero, add_zero]
        cases k with
        | zero =>
          -- no opening bracket left: the rest would be too short
          exfalso
          have hlen : ∀ (s : List Char) (d : Nat), completes c cls d s → d ≤ s.length := by
            intro s
            induction s with
            | nil => intro d h; cases h; simp
            | cons y s ih =>
              intro d h
              rcases h with ⟨_, h⟩ | ⟨_, _, h⟩
              · have := ih _ h; simp; omega
              · have := ih _ h; simp; omega
          have := hlen s _ hc
          omega
        | succ k =>
          have := ih k m s (by omega) (by omega) h3 hsl (by rw [show m - k = m - (k + 1) + 1 by omega]; exact hc)
          rw [show (m : Int) - (k : Int) = (m : Int) - ((k + 1 : Nat) : Int) + 1 by omega] at this
          rw [this]
          have key := ballot_open k m
          have hb' := ballot_pos (show k ≤ m by omega)
          rw [Int.sub_zero]
          rw [div_eq_div_iff (ne_of_gt hTq) (ne_of_gt hb), one_mul]
          push_cast at hrq ⊢
          rw [hrq]
          field_simp
          linear_combination key
      · rw [if_neg hne, if_pos rfl, mul_zero, zero_add]
        cases m with
        | zero => omega
        | succ m =>
          have hkm : k ≤ m := by omega
          have := ih k m s (by omega) hkm (by omega) hsl (by rw [show m - k = m + 1 - k - 1 by omega]; exact hc)
          rw [show (m : Int) - (k : Int) = ((m + 1 : Nat) : Int) - (k : Int) - 1 by omega] at this
          rw [this]
          have key := ballot_close k m
          have hb' := ballot_pos hkm
          rw [Int.sub_zero]
          rw [div_eq_div_iff (ne_of_gt hTq) (ne_of_gt hb), one_mul]
          push_cast at hrq ⊢
          rw [hrq]
          field_simp
          linear_combination key

/-- **C09.** For `0 ≤ n ≤ 2^31 - 1`, `Random::bracketSequence(n, open, close)` returns a balanced bracket
sequence with `n` bracket pairs. -/
theorem C09_balanced (n : Int) (opn cls : Char) (h0 : 0 ≤ n) (hn : n ≤ 0x7FFFFFFF) :
    SatOk (bracketSequence n opn cls) fun s => s.length = 2 * n.toNat ∧ Balanced opn cls s := by
  unfold bracketSequence
  rw [decide_eq_true (And.intro h0 hn), judgeAssert_true, Rand.lift_ok, Rand.bind_done_ok]
  have := bracketLoop_sat opn cls hn (2 * n).toNat n.toNat n.toNat (by omega) (le_refl _) (by omega)
  rw [Int.sub_self, Nat.sub_self] at this
  exact SatOk.mono this fun s hs => ⟨by rw [hs.1]; omega, balanced_of_completes hs.2⟩

/-- **C09.** All balanced bracket sequences with `n` pairs are equally likely; there are `catalan n` of them. -/
theorem C09_uniform (n : Int) (opn cls : Char) (hne : opn ≠ cls) (h0 : 0 ≤ n) (hn : n ≤ 0x7FFFFFFF) (s : List Char)
    (hs : s.length = 2 * n.toNat) (hb : Balanced opn cls s) :
    prob (bracketSequence n opn cls) s = 1 / (catalan n.toNat : ℚ) := by
  unfold bracketSequence
  rw [decide_eq_true (And.intro h0 hn), judgeAssert_true, Rand.lift_ok, Rand.bind_done_ok]
  have := bracketLoop_prob hne hn (2 * n).toNat n.toNat n.toNat s (by omega) (le_refl _) (by omega) (by omega)
    (by rw [Nat.sub_self]; exact completes_of_balanced hb)
  rw [Int.sub_self] at this
  rw [this]
  congr 1
  unfold ballot
  have hcat := succ_mul_catalan_eq_centralBinom n.toNat
  have hcat' : ((n.toNat : ℚ) + 1) * catalan n.toNat = ((n.toNat + n.toNat).choose n.toNat : ℚ) := by
    rw [← Nat.two_mul]; exact_mod_cast hcat
  rw [← hcat']
  have : (n.toNat : ℚ) + 1 ≠ 0 := by positivity
  field_simp
  ring

/-- Other arguments throw. -/
theorem C09_throws (n : Int) (opn cls : Char) (h : n < 0 ∨ 0x7FFFFFFF < n) : bracketSequence n opn cls = .done (.error .throw) := by
  unfold bracketSequence
  rw [decide_eq_false (by omega), judgeAssert_false]; rfl

example : (bracketSequence 2 '(' ')').run true [3, 3, 3, 3] = some (.ok ['(', '(', ')', ')'], []) := by decide +kernel
example : Balanced '(' ')' ['(', '(', ')', ')', '(', ')'] := .pair (s := ['(', ')']) (.pair .nil .nil) (.pair .nil .nil)

end ICPC.Props
