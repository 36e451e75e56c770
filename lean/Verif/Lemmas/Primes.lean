import Verif.Model.Primes
import Verif.Lemmas.Prime

namespace ICPC
open ICPC.Spec

/-- `m` is crossed out by an odd prime below `i` -/
def Sieved (i m : Nat) : Prop := ∃ p, p.Prime ∧ p ≠ 2 ∧ p < i ∧ p * p ≤ m ∧ p ∣ m

theorem markLoop_spec (step stop base : Nat) (hstep : 0 < step) (hov : stop + step ≤ 2 ^ 63) :
    ∀ (n j : Nat) (v : List Bool), stop - j = n → base ≤ j → (∀ k, k < stop → (k - base) / 2 < v.length) →
    ∃ v', markLoop step stop base j v = .ok v' ∧ v'.length = v.length ∧
      ∀ k : Nat, (v'[k]? = some true ↔ v[k]? = some true ∨ ∃ t : Nat, j + t * step < stop ∧ (j + t * step - base) / 2 = k) := by
  intro n
  induction n using Nat.strong_induction_on with
  | _ n ih =>
    intro j v hn hb hlen
    unfold markLoop
    by_cases h : j < stop
    · rw [dif_pos ⟨h, hstep⟩]
      have hl := hlen j h
      simp only [setBit, hl, if_true]
      rw [if_pos (by omega)]
      obtain ⟨v', h1, h2, h3⟩ := ih (stop - (j + step)) (by omega) (j + step) (v.set ((j - base) / 2) true) rfl (by omega)
        (by simpa using hlen)
      refine ⟨v', h1, by simpa using h2, fun k => ?_⟩
      rw [h3, List.getElem?_set]
      constructor
      · rintro (h4 | ⟨t, h4, h5⟩)
        · by_cases hk : (j - base) / 2 = k
          · exact Or.inr ⟨0, by omega, by simpa using hk⟩
          · rw [if_neg hk] at h4; exact Or.inl h4
        · refine Or.inr ⟨t + 1, ?_, ?_⟩
          · rw [Nat.succ_mul]; omega
          · rw [Nat.succ_mul, ← h5]; congr 2; omega
      · rintro (h4 | ⟨t, h4, h5⟩)
        · by_cases hk : (j - base) / 2 = k
          · left; rw [if_pos hk, if_pos (by omega)]
          · left; rw [if_neg hk]; exact h4
        · cases t with
          | zero => left; simp at h5; rw [if_pos h5, if_pos (by omega)]
          | succ t =>
            rw [Nat.succ_mul] at h4 h5
            exact Or.inr ⟨t, by omega, by rw [← h5]; congr 2; omega⟩
    · rw [dif_neg (by omega)]
      refine ⟨v, rfl, rfl, fun k => ?_⟩
      constructor
      · exact Or.inl
      · rintro (h4 | ⟨t, h4, _⟩)
        · exact h4
        · omega

theorem lowest_spec {lower i : Nat} (hi : 0 < i) (hodd : i % 2 = 1) (hov : lower + 2 * i < 2 ^ 63) :
    ∃ l, lowestMultiple lower i = .ok l ∧ lower ≤ l ∧ l < lower + 2 * i ∧ ∃ q, l = (2 * q + 1) * i := by
  have hd := Nat.div_add_mod lower (2 * i)
  have hm := Nat.mod_lt lower (show 0 < 2 * i by omega)
  unfold lowestMultiple
  generalize lower / (2 * i) = q at hd
  generalize lower % (2 * i) = r at hd hm ⊢
  have e : lower - r + i = (2 * q + 1) * i := by
    have : lower - r = 2 * i * q := by omega
    rw [this]; ring
  dsimp only
  rw [if_pos (by omega)]
  by_cases h : lower - r + i < lower
  · rw [if_pos h, if_pos (by omega)]
    refine ⟨_, rfl, by omega, by omega, q + 1, ?_⟩
    rw [e]; ring
  · rw [if_neg h]
    exact ⟨_, rfl, by omega, by omega, q, e⟩

/-- the indices of the odd multiples of `i` from `s` on -/
theorem mark_iff {i s stop base m : Nat} (hi : 0 < i) (hodd : i % 2 = 1) (hs : ∃ q, s = (2 * q + 1) * i) (hbs : base ≤ s)
    (hm : m % 2 = 1) (hbm : base ≤ m) (hstop : m < stop) :
    (∃ t : Nat, s + t * (2 * i) < stop ∧ (s + t * (2 * i) - base) / 2 = (m - base) / 2) ↔ s ≤ m ∧ i ∣ m := by
  obtain ⟨q, hq⟩ := hs
  have hsodd : s % 2 = 1 := by rw [hq, Nat.mul_mod, hodd]; omega
  constructor
  · rintro ⟨t, h1, h2⟩
    have hto : (t * (2 * i)) % 2 = 0 := by
      have : t * (2 * i) = 2 * (t * i) := by ring
      omega
    have hem : s + t * (2 * i) = m := by omega
    refine ⟨by omega, ?_⟩
    rw [← hem, hq]
    exact ⟨(2 * q + 1) + t * 2, by ring⟩
  · rintro ⟨h1, c, h2⟩
    have hc : c % 2 = 1 := by
      rcases Nat.mod_two_eq_zero_or_one c with h | h
      · rw [h2, Nat.mul_mod, h] at hm; simp at hm
      · exact h
    have hcq : 2 * q + 1 ≤ c := by
      by_contra hlt
      have : c * i < (2 * q + 1) * i := Nat.mul_lt_mul_of_pos_right (by omega) hi
      rw [mul_comm] at this; omega
    refine ⟨(c - (2 * q + 1)) / 2, ?_⟩
    have : s + (c - (2 * q + 1)) / 2 * (2 * i) = m := by
      have h3 : (c - (2 * q + 1)) / 2 * 2 = c - (2 * q + 1) := by omega
      rw [← mul_assoc, h3, Nat.sub_mul, h2, hq, mul_comm c i]
      have : (2 * q + 1) * i ≤ i * c := by rw [mul_comm i c]; exact Nat.mul_le_mul_right _ hcq
      omega
    rw [this]
    exact ⟨hstop, rfl⟩

theorem sieved_self {i : Nat} (hi : 3 ≤ i) (hodd : i % 2 = 1) : Sieved i i ↔ ¬ i.Prime := by
  constructor
  · rintro ⟨p, hp, h2, h3, h4, h5⟩ hpr
    rcases (Nat.dvd_prime hpr).1 h5 with h | h
    · exact hp.one_lt.ne' h
    · omega
  · intro hnp
    have hm := Nat.minFac_prime (n := i) (by omega)
    have hsq := Nat.minFac_sq_le_self (n := i) (by omega) hnp
    rw [sq] at hsq
    have hd := Nat.minFac_dvd i
    refine ⟨_, hm, ?_, ?_, hsq, hd⟩
    · intro h; rw [h] at hd; omega
    · rcases Nat.lt_or_ge i.minFac i with h | h
      · exact h
      · have := hm.two_le
        nlinarith

theorem sieved_succ {i m : Nat} (hodd : i % 2 = 1) :
    Sieved (i + 2) m ↔ Sieved i m ∨ (i.Prime ∧ i ≠ 2 ∧ i * i ≤ m ∧ i ∣ m) := by
  constructor
  · rintro ⟨p, hp, h2, h3, h4⟩
    by_cases h : p < i
    · exact Or.inl ⟨p, hp, h2, h, h4⟩
    · right
      have hpodd := hp.eq_two_or_odd
      have : p = i := by omega
      subst this
      exact ⟨hp, h2, h4⟩
  · rintro (⟨p, hp, h2, h3, h4⟩ | ⟨hp, h2, h4⟩)
    · exact ⟨p, hp, h2, by omega, h4⟩
    · exact ⟨i, hp, h2, by omega, h4⟩

theorem sieved_end {i count m : Nat} (hge : count ≤ i) (hle : i ≤ count + 1 ∨ i = 3) (hodd : i % 2 = 1) :
    Sieved i m ↔ Sieved count m := by
  constructor
  · rintro ⟨p, hp, h2, h3, h4⟩
    have hpodd := hp.eq_two_or_odd
    have := hp.two_le
    exact ⟨p, hp, h2, by omega, h4⟩
  · rintro ⟨p, hp, h2, h3, h4⟩
    exact ⟨p, hp, h2, by omega, h4⟩

theorem sieveLoop_spec (lower upper count : Nat) (hcount : count = upper - lower) (hcap : count ≤ 2 ^ 30)
    (hup : upper + 2 * count < 2 ^ 63) :
    ∀ (n i : Nat) (np seg : List Bool), count - i = n → 3 ≤ i → (i ≤ count + 1 ∨ i = 3) → i % 2 = 1 →
      np.length = (count + 1) / 2 → seg.length = (count + 1) / 2 →
      (∀ m, m % 2 = 1 → m < count → (np[m / 2]? = some true ↔ Sieved i m)) →
      (∀ m, m % 2 = 1 → lower ≤ m → m < upper → (seg[(m - lower) / 2]? = some true ↔ Sieved i m)) →
      ∃ seg', sieveLoop lower upper count i np seg = .ok seg' ∧ seg'.length = (count + 1) / 2 ∧
        ∀ m, m % 2 = 1 → lower ≤ m → m < upper → (seg'[(m - lower) / 2]? = some true ↔ Sieved count m) := by
  intro n
  induction n using Nat.strong_induction_on with
  | _ n ih =>
    intro i np seg hn hi3 hi hodd hl1 hl2 hnp hseg
    unfold sieveLoop
    by_cases hlt : i < count
    · rw [if_pos hlt]
      have hidx : i / 2 < np.length := by omega
      have hself := hnp i hodd hlt
      rw [sieved_self hi3 hodd] at hself
      have hget : getBit np (i / 2) = .ok np[i / 2] := by simp [getBit, hidx]
      rw [hget, ok_bind]
      rw [List.getElem?_eq_getElem hidx, Option.some.injEq] at hself
      by_cases hb : np[i / 2] = true
      · rw [if_pos hb]
        have hnpr := hself.1 hb
        refine ih (count - (i + 2)) (by omega) (i + 2) np seg rfl (by omega) (by omega) (by omega) hl1 hl2 ?_ ?_
        · intro m h1 h2; rw [hnp m h1 h2, sieved_succ hodd]; simp [hnpr]
        · intro m h1 h2 h3; rw [hseg m h1 h2 h3, sieved_succ hodd]; simp [hnpr]
      · rw [if_neg hb]
        have hpr : i.Prime := by
          by_contra h; exact hb (hself.2 h)
        obtain ⟨np', e1, e2, e3⟩ := markLoop_spec (2 * i) count 0 (by omega) (by omega) _ (i * i) np rfl (by omega)
          (by intro k hk; omega)
        obtain ⟨lo, f1, f2, f3, q, f4⟩ := lowest_spec (lower := lower) (i := i) (by omega) hodd (by omega)
        obtain ⟨seg', g1, g2, g3⟩ := markLoop_spec (2 * i) upper lower (by omega) (by omega) _ (max (i * i) lo) seg rfl (by omega)
          (by intro k hk; omega)
        rw [e1, ok_bind, f1, ok_bind, g1, ok_bind]
        have hsq : ∃ q, i * i = (2 * q + 1) * i := ⟨i / 2, by congr 1; omega⟩
        have hmx : ∃ q, max (i * i) lo = (2 * q + 1) * i := by
          rcases max_choice (i * i) lo with h | h <;> rw [h]
          · exact hsq
          · exact ⟨q, f4⟩
        refine ih (count - (i + 2)) (by omega) (i + 2) np' seg' rfl (by omega) (by omega) (by omega) (by omega) (by omega) ?_ ?_
        · intro m h1 h2
          rw [e3, hnp m h1 h2, sieved_succ hodd]
          have := mark_iff (i := i) (s := i * i) (stop := count) (base := 0) (m := m) (by omega) hodd hsq (by omega) h1 (by omega) h2
          simp only [Nat.sub_zero] at this ⊢
          rw [this]
          simp [hpr, show i ≠ 2 by omega]
        · intro m h1 h2 h3
          rw [g3, hseg m h1 h2 h3, sieved_succ hodd]
          rw [mark_iff (i := i) (by omega) hodd hmx (by omega) h1 h2 h3]
          have : (max (i * i) lo ≤ m ∧ i ∣ m) ↔ (i * i ≤ m ∧ i ∣ m) := by
            constructor
            · rintro ⟨h, hd⟩; exact ⟨by omega, hd⟩
            · rintro ⟨h, c, hd⟩
              refine ⟨max_le h ?_, c, hd⟩
              by_contra hgt
              have hco : c % 2 = 1 := by
                rcases Nat.mod_two_eq_zero_or_one c with h | h
                · rw [hd, Nat.mul_mod, h] at h1; simp at h1
                · exact h
              have hcl : c < 2 * q + 1 := by
                by_contra hcge
                have : (2 * q + 1) * i ≤ c * i := Nat.mul_le_mul_right _ (by omega)
                rw [mul_comm c i] at this; omega
              have hc2 : c + 2 ≤ 2 * q + 1 := by omega
              have := Nat.mul_le_mul_right i hc2
              rw [Nat.add_mul, mul_comm c i] at this
              omega
          rw [this]
          simp [hpr, show i ≠ 2 by omega]
    · rw [if_neg hlt]
      refine ⟨seg, rfl, hl2, fun m h1 h2 h3 => ?_⟩
      rw [hseg m h1 h2 h3, sieved_end (by omega) hi hodd]

theorem collectLoop_spec (i128 : Bool) (lower upper count : Nat) (seg : List Bool)
    (hup : upper + 2 < 2 ^ 63) (hlen : ∀ k, lower ≤ k → k < upper → (k - lower) / 2 < seg.length) :
    ∀ (n i : Nat), upper - i = n → lower ≤ i → i % 2 = 1 →
      ∃ l, collectLoop i128 lower upper count seg i = .ok l ∧ l.Pairwise (· < ·) ∧
       ∀ x : Int, x ∈ l ↔ ∃ m : Nat, x = m ∧ i ≤ m ∧ m < upper ∧ m % 2 = 1 ∧ seg[(m - lower) / 2]? ≠ some true ∧
         (m < count * count ∨ isPrime i128 m = true) := by
  intro n
  induction n using Nat.strong_induction_on with
  | _ n ih =>
    intro i hn hli hodd
    unfold collectLoop
    by_cases h : i < upper
    · rw [if_pos h]
      have hidx := hlen i hli h
      have hget : getBit seg ((i - lower) / 2) = .ok seg[(i - lower) / 2] := by simp [getBit, hidx]
      rw [hget, ok_bind, if_pos (by omega)]
      obtain ⟨l, h1, h2, h3⟩ := ih (upper - (i + 2)) (by omega) (i + 2) rfl (by omega) (by omega)
      rw [h1, ok_bind]
      have hq : seg[(i - lower) / 2]? = some seg[(i - lower) / 2] := List.getElem?_eq_getElem hidx
      by_cases hc : (!seg[(i - lower) / 2] && (decide (i < count * count) || isPrime i128 i)) = true
      · rw [if_pos hc]
        simp only [Bool.and_eq_true, Bool.not_eq_true', Bool.or_eq_true, decide_eq_true_eq] at hc
        refine ⟨_, rfl, ?_, fun x => ?_⟩
        · refine List.pairwise_cons.2 ⟨fun y hy => ?_, h2⟩
          obtain ⟨m, rfl, hm, _⟩ := (h3 y).1 hy
          omega
        · rw [List.mem_cons, h3]
          constructor
          · rintro (rfl | ⟨m, rfl, h4, h5⟩)
            · exact ⟨i, rfl, le_refl _, h, hodd, by rw [hq, hc.1]; simp, hc.2⟩
            · exact ⟨m, rfl, by omega, h5⟩
          · rintro ⟨m, rfl, h4, h5, h6, h7⟩
            by_cases he : m = i
            · left; rw [he]
            · exact Or.inr ⟨m, rfl, by omega, h5, h6, h7⟩
      · rw [if_neg hc]
        refine ⟨_, rfl, h2, fun x => ?_⟩
        rw [h3]
        constructor
        · rintro ⟨m, rfl, h4, h5⟩
          exact ⟨m, rfl, by omega, h5⟩
        · rintro ⟨m, rfl, h4, h5, h6, h7, h8⟩
          by_cases he : m = i
          · subst he
            rw [hq] at h7
            exfalso; apply hc
            simp only [Bool.and_eq_true, Bool.not_eq_true', Bool.or_eq_true, decide_eq_true_eq]
            exact ⟨by simpa using h7, h8⟩
          · exact ⟨m, rfl, by omega, h5, h6, h7, h8⟩
    · rw [if_neg h]
      refine ⟨[], rfl, List.Pairwise.nil, fun x => ?_⟩
      constructor
      · simp
      · rintro ⟨m, _, h1, h2, _⟩; omega

theorem or_one (a : Nat) : a ||| 1 = if a % 2 = 1 then a else a + 1 := by
  apply Nat.eq_of_testBit_eq
  intro i
  rw [Nat.testBit_or]
  split <;> rename_i h
  · cases i with
    | zero => simp [h]
    | succ i => simp [Nat.testBit_succ]
  · cases i with
    | zero => simp; omega
    | succ i =>
      have : (a + 1) / 2 = a / 2 := by omega
      simp [Nat.testBit_succ, this]

/-- what the returned numbers are, in the window where the code is defined -/
theorem primes_spec (i128 : Bool) (lower upper : Int) (hlt : lower < upper)
    (hwin : upper - max 2 lower ≤ 0x3FFFFFFF) (hup : upper + 2 * 0x3FFFFFFF < 2 ^ 63) :
    ∃ l, primes i128 lower upper = .ok l ∧ l.Pairwise (· < ·) ∧
      ∀ x : Int, x ∈ l ↔ lower ≤ x ∧ x < upper ∧ (x = 2 ∨ (2 < x ∧ x % 2 = 1 ∧ ¬ Sieved (upper - max 2 lower).toNat x.toNat ∧
         (x < (upper - max 2 lower) ^ 2 ∨ isPrime i128 x = true))) := by
  unfold primes
  rw [decide_eq_true hlt, judgeAssert_true, ok_bind]
  obtain ⟨lo, hlo⟩ : ∃ lo : Nat, max 2 lower = lo := ⟨(max 2 lower).toNat, by omega⟩
  obtain ⟨up, hupe⟩ : ∃ up : Nat, max 2 upper = up := ⟨(max 2 upper).toNat, by omega⟩
  have hlo2 : 2 ≤ lo := by omega
  have hle : lo ≤ up := by omega
  rw [hlo, hupe, Int.toNat_natCast, Int.toNat_natCast]
  unfold primesClamped
  have hmin : min 0x3FFFFFFF (up - lo) = up - lo := by omega
  rw [hmin]
  obtain ⟨seg, h1, h2, h3⟩ := sieveLoop_spec lo up (up - lo) rfl (by omega) (by omega) _ 3
    (List.replicate ((up - lo + 1) / 2) false) (List.replicate ((up - lo + 1) / 2) false) rfl (by omega) (by omega) (by omega)
    (by simp) (by simp)
    (by intro m _ _
        constructor
        · intro h; rw [List.getElem?_replicate] at h; split at h <;> simp at h
        · rintro ⟨p, hp, h2, h3, _⟩; have := hp.two_le; omega)
    (by intro m _ _ _
        constructor
        · intro h; rw [List.getElem?_replicate] at h; split at h <;> simp at h
        · rintro ⟨p, hp, h2, h3, _⟩; have := hp.two_le; omega)
  dsimp only
  rw [h1, ok_bind]
  obtain ⟨l, h4, h5, h6⟩ := collectLoop_spec i128 lo up (up - lo) seg (by omega) (by intro k hk1 hk; omega) _ (lo ||| 1) rfl
    (by rw [or_one]; split <;> omega) (by rw [or_one]; split <;> omega)
  rw [h4, ok_bind]
  have hge : lo ≤ (lo ||| 1) ∧ (lo ||| 1) ≤ lo + 1 ∧ (lo ||| 1) % 2 = 1 := by rw [or_one]; split <;> omega
  generalize (lo ||| 1) = st at h4 h6 hge
  have hmem : ∀ x : Int, x ∈ l ↔ lower ≤ x ∧ x < upper ∧ 2 < x ∧ x % 2 = 1 ∧ ¬ Sieved (upper - (lo : Int)).toNat x.toNat ∧
         (x < (upper - (lo : Int)) ^ 2 ∨ isPrime i128 x = true) := by
    intro x
    rw [h6]
    have hsub : upper > 2 → (upper - (lo : Int)) = ((up - lo : Nat) : Int) := by omega
    constructor
    · rintro ⟨m, rfl, h7, h8, h9, h10, h11⟩
      rw [Ne, h3 m h9 (by omega) h8] at h10
      rw [hsub (by omega), Int.toNat_natCast, Int.toNat_natCast, sq]
      refine ⟨by omega, by omega, by omega, by omega, h10, ?_⟩
      rcases h11 with h | h
      · left; exact_mod_cast h
      · exact Or.inr h
    · rintro ⟨h7, h8, h9, h10, h11, h12⟩
      rw [hsub (by omega), Int.toNat_natCast] at h11
      rw [hsub (by omega), sq] at h12
      have e : x = (x.toNat : Int) := by omega
      refine ⟨x.toNat, e, by omega, by omega, by omega, ?_, ?_⟩
      · rw [Ne, h3 _ (by omega) (by omega) (by omega)]; exact h11
      · rw [e] at h12
        rcases h12 with h | h
        · left; exact_mod_cast h
        · exact Or.inr h
  by_cases hc : lo ≤ 2 ∧ 2 < up
  · rw [if_pos hc]
    refine ⟨_, rfl, List.pairwise_cons.2 ⟨fun y hy => ((hmem y).1 hy).2.2.1, h5⟩, fun x => ?_⟩
    rw [List.mem_cons, hmem]
    constructor
    · rintro (rfl | ⟨h1, h2, h3⟩)
      · exact ⟨by omega, by omega, Or.inl rfl⟩
      · exact ⟨h1, h2, Or.inr h3⟩
    · rintro ⟨h1, h2, rfl | h3⟩
      · exact Or.inl rfl
      · exact Or.inr ⟨h1, h2, h3⟩
  · rw [if_neg hc]
    refine ⟨_, rfl, h5, fun x => ?_⟩
    rw [hmem]
    constructor
    · rintro ⟨h1, h2, h3⟩; exact ⟨h1, h2, Or.inr h3⟩
    · rintro ⟨h1, h2, rfl | h3⟩
      · omega
      · exact ⟨h1, h2, h3⟩

theorem not_sieved_of_prime {c m : Nat} (hm : m.Prime) : ¬ Sieved c m := by
  rintro ⟨p, hp, _, _, h4, h5⟩
  rcases (Nat.dvd_prime hm).1 h5 with h | h
  · exact hp.one_lt.ne' h
  · subst h; have := hp.two_le; nlinarith

theorem prime_of_not_sieved {c m : Nat} (h2 : 2 < m) (hodd : m % 2 = 1) (hlt : m < c * c) (hs : ¬ Sieved c m) : m.Prime := by
  by_contra hnp
  apply hs
  have hm := Nat.minFac_prime (n := m) (by omega)
  have hsq := Nat.minFac_sq_le_self (n := m) (by omega) hnp
  rw [sq] at hsq
  have hd := Nat.minFac_dvd m
  refine ⟨_, hm, ?_, ?_, hsq, hd⟩
  · intro h; rw [h] at hd; omega
  · by_contra h
    have : c * c ≤ m.minFac * m.minFac := Nat.mul_le_mul (by omega) (by omega)
    omega

theorem markLoop_ub (step stop base : Nat) (hstep : 0 < step) :
    ∀ (n j : Nat) (v : List Bool), stop - j = n → (∃ t : Nat, j + t * step < stop ∧ v.length ≤ (j + t * step - base) / 2) →
      markLoop step stop base j v = .error .ub := by
  intro n
  induction n using Nat.strong_induction_on with
  | _ n ih =>
    rintro j v hn ⟨t, h1, h2⟩
    have h : j < stop := by omega
    unfold markLoop
    rw [dif_pos ⟨h, hstep⟩]
    by_cases hl : (j - base) / 2 < v.length
    · simp only [setBit, hl, if_true]
      by_cases ho : j + step < 2 ^ 63
      · rw [if_pos ho]
        refine ih _ (by omega) _ _ rfl ?_
        cases t with
        | zero => simp at h2; omega
        | succ t => 
          rw [Nat.succ_mul] at h1 h2
          exact ⟨t, by omega, by simp; rw [show j + step + t * step = j + (t * step + step) by omega]; exact h2⟩
      · rw [if_neg ho]
    · simp only [setBit, hl, if_false]

end ICPC
