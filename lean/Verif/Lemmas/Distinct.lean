import Verif.Props.Shuffle
import Mathlib.Data.Nat.Factorial.Basic

namespace ICPC
open ICPC.Spec

theorem prob_bind_cons {α : Type} [DecidableEq α] (r : Rand (List α)) (y a : α) (t : List α) :
    prob (r >>= fun rest => pure (y :: rest)) (a :: t) = if y = a then prob r t else 0 := by
  rw [prob_bind]
  by_cases h : y = a
  · rw [if_pos h]
    unfold prob
    congr 1
    funext x
    rw [Rand.pure_def, expect_done_ok]
    simp [h]
  · rw [if_neg h]
    have : (fun x => prob (pure (y :: x) : Rand (List α)) (a :: t)) = fun _ => (0 : ℚ) := by
      funext x
      rw [Rand.pure_def, prob_done, if_neg (by simp [h])]
    rw [this, expect_zero]

theorem prob_bind_cons_nil {α : Type} [DecidableEq α] (r : Rand (List α)) (y : α) :
    prob (r >>= fun rest => pure (y :: rest)) [] = 0 := by
  rw [prob_bind]
  have : (fun x => prob (pure (y :: x) : Rand (List α)) []) = fun _ => (0 : ℚ) := by
    funext x
    rw [Rand.pure_def, prob_done, if_neg (by simp)]
  rw [this, expect_zero]

/-- the value at position `x` of the virtual array of `Random::distinct` -/
def cur (used : IntMap) (x : Int) : Int := (used x).getD x

theorem cur_update (used : IntMap) (x m k : Int) :
    cur (fun k => if k = x then some m else used k) k = if k = x then m else cur used k := by
  unfold cur
  by_cases h : k = x <;> simp [h]

theorem cur_inj_update {lower u : Int} {used : IntMap}
    (hinj : ∀ a b, lower ≤ a → a < u → lower ≤ b → b < u → cur used a = cur used b → a = b)
    {x : Int} (h1 : lower ≤ x) (_h2 : x < u) :
    ∀ a b, lower ≤ a → a < u - 1 → lower ≤ b → b < u - 1 →
      cur (fun k => if k = x then some (cur used (u - 1)) else used k) a =
      cur (fun k => if k = x then some (cur used (u - 1)) else used k) b → a = b := by
  intro a b ha1 ha2 hb1 hb2 h
  rw [cur_update, cur_update] at h
  by_cases e1 : a = x <;> by_cases e2 : b = x
  · omega
  · rw [if_pos e1, if_neg e2] at h
    have := hinj (u - 1) b (by omega) (by omega) (by omega) (by omega) h; omega
  · rw [if_neg e1, if_pos e2] at h
    have := hinj a (u - 1) (by omega) (by omega) (by omega) (by omega) h; omega
  · rw [if_neg e1, if_neg e2] at h
    exact hinj a b ha1 (by omega) hb1 (by omega) h

/-- the values of the updated array are the old ones without the drawn one -/
theorem cur_image_update {lower u : Int} {used : IntMap}
    (hinj : ∀ a b, lower ≤ a → a < u → lower ≤ b → b < u → cur used a = cur used b → a = b)
    {x : Int} (h1 : lower ≤ x) (h2 : x < u) (y : Int) :
    (∃ k, lower ≤ k ∧ k < u - 1 ∧ y = cur (fun k => if k = x then some (cur used (u - 1)) else used k) k) ↔
    (∃ k, lower ≤ k ∧ k < u ∧ y = cur used k) ∧ y ≠ cur used x := by
  constructor
  · rintro ⟨k, hk1, hk2, rfl⟩
    rw [cur_update]
    by_cases e : k = x
    · rw [if_pos e]
      refine ⟨⟨u - 1, by omega, by omega, rfl⟩, fun h => ?_⟩
      have := hinj (u - 1) x (by omega) (by omega) h1 h2 h; omega
    · rw [if_neg e]
      refine ⟨⟨k, by omega, by omega, rfl⟩, fun h => ?_⟩
      have := hinj k x (by omega) (by omega) h1 h2 h; omega
  · rintro ⟨⟨k, hk1, hk2, rfl⟩, hne⟩
    have hkx : k ≠ x := fun h => hne (by rw [h])
    by_cases e : k = u - 1
    · refine ⟨x, h1, by omega, ?_⟩
      rw [cur_update, if_pos rfl, e]
    · refine ⟨k, hk1, by omega, ?_⟩
      rw [cur_update, if_neg hkx]

theorem distinctLoop_step (lower upper : Int) (n : Nat) (i : Int) (used : IntMap) (h : I64 (upper - i)) :
    distinctLoop lower upper (n + 1) i used = integer lower (upper - i) >>= fun x =>
      distinctLoop lower upper n (i + 1) (fun k => if k = x then some (cur used (upper - i - 1)) else used k) >>= fun rest =>
        pure (cur used x :: rest) := by
  rw [distinctLoop, chk_ok h]; rfl

theorem distinctLoop_sat {lower upper : Int} (hl : I64 lower) (hu : I64 upper) : ∀ (n : Nat) (i : Int) (used : IntMap),
    0 ≤ i → lower + i + n ≤ upper →
    (∀ a b, lower ≤ a → a < upper - i → lower ≤ b → b < upper - i → cur used a = cur used b → a = b) →
    SatOk (distinctLoop lower upper n i used) fun res => res.length = n ∧ res.Nodup ∧
      ∀ y ∈ res, ∃ k, lower ≤ k ∧ k < upper - i ∧ y = cur used k := by
  intro n
  induction n with
  | zero => intro i used _ _ _; exact satOk_done ⟨rfl, List.nodup_nil, by simp⟩
  | succ n ih =>
    intro i used hi hle hinj
    have h64 : I64 (upper - i) := i64_of_le hl hu (by omega) (by omega)
    rw [distinctLoop_step _ _ _ _ _ h64]
    apply sat_integer_bind hl h64 (by omega)
    intro x hx1 hx2
    have hrec := ih (i + 1) (fun k => if k = x then some (cur used (upper - i - 1)) else used k) (by omega) (by omega) (by
      have := cur_inj_update hinj hx1 hx2
      rw [show upper - (i + 1) = upper - i - 1 by omega]; exact this)
    refine SatOk.bind hrec fun rest hr => ?_
    rw [show upper - (i + 1) = upper - i - 1 by omega] at hr
    obtain ⟨hr1, hr2, hr3⟩ := hr
    refine satOk_done ⟨by simp [hr1], List.nodup_cons.2 ⟨fun hmem => ?_, hr2⟩, fun y hy => ?_⟩
    · have := (cur_image_update hinj hx1 hx2 _).1 (hr3 _ hmem)
      exact this.2 rfl
    · rcases List.mem_cons.1 hy with rfl | hy
      · exact ⟨x, hx1, hx2, rfl⟩
      · exact ((cur_image_update hinj hx1 hx2 _).1 (hr3 _ hy)).1

theorem distinctLoop_prob {lower upper : Int} (hl : I64 lower) (hu : I64 upper) : ∀ (n : Nat) (i : Int) (used : IntMap) (t : List Int),
    0 ≤ i → lower + i + n ≤ upper →
    (∀ a b, lower ≤ a → a < upper - i → lower ≤ b → b < upper - i → cur used a = cur used b → a = b) →
    t.length = n → t.Nodup → (∀ y ∈ t, ∃ k, lower ≤ k ∧ k < upper - i ∧ y = cur used k) →
    prob (distinctLoop lower upper n i used) t = 1 / (((upper - i - lower).toNat.descFactorial n : Nat) : ℚ) := by
  intro n
  induction n with
  | zero =>
    intro i used t _ _ _ hlen _ _
    have : t = [] := List.length_eq_zero_iff.1 hlen
    subst this
    show prob (.done (.ok [])) [] = _
    rw [prob_done, if_pos rfl]; simp
  | succ n ih =>
    intro i used t hi hle hinj hlen hnd hmem
    have h64 : I64 (upper - i) := i64_of_le hl hu (by omega) (by omega)
    cases t with
    | nil => simp at hlen
    | cons a t =>
      rw [distinctLoop_step _ _ _ _ _ h64]
      obtain ⟨x, hx1, hx2, rfl⟩ := hmem a (by simp)
      have hwidth : (upper - i - lower).toNat = (upper - (i + 1) - lower).toNat + 1 := by omega
      have hfac : (1 : ℚ) / (((upper - i - lower).toNat.descFactorial (n + 1) : Nat) : ℚ) =
          (1 / (((upper - (i + 1) - lower).toNat.descFactorial n : Nat) : ℚ)) / ((upper - i - lower : Int) : ℚ) := by
        rw [hwidth, Nat.succ_descFactorial_succ, Nat.cast_mul, div_div, mul_comm]
        congr 2
        have : (upper - i - lower : Int) = (((upper - (i + 1) - lower).toNat + 1 : Nat) : Int) := by omega
        rw [this]; push_cast; rfl
      rw [hfac]
      refine prob_integer_unique hl h64 hx1 hx2 ?_ ?_
      · rw [prob_bind_cons, if_pos rfl]
        refine ih (i + 1) _ t (by omega) (by omega) ?_ (by simpa using hlen) (List.nodup_cons.1 hnd).2 ?_
        · have := cur_inj_update hinj hx1 hx2
          rw [show upper - (i + 1) = upper - i - 1 by omega]; exact this
        · intro y hy
          rw [show upper - (i + 1) = upper - i - 1 by omega]
          refine (cur_image_update hinj hx1 hx2 _).2 ⟨hmem y (by simp [hy]), ?_⟩
          rintro rfl
          exact (List.nodup_cons.1 hnd).1 hy
      · intro w hw1 hw2 hne
        rw [prob_bind_cons, if_neg]
        intro h
        exact hne (hinj w x hw1 hw2 hx1 hx2 h)

theorem distinct_unfold {count lower upper : Int} (h0 : 0 ≤ count) (hl : I64 lower) (hu : I64 upper) (hle : lower + count ≤ upper) :
    distinct count lower upper = distinctLoop lower upper count.toNat 0 (fun _ => none) := by
  unfold distinct
  rw [decide_eq_true h0, judgeAssert_true, chk_ok (i64_of_le hl hu (by omega) hle), Rand.lift_ok, Rand.bind_done_ok, Rand.lift_ok, Rand.bind_done_ok,
    decide_eq_true hle, judgeAssert_true, Rand.lift_ok, Rand.bind_done_ok]

end ICPC
