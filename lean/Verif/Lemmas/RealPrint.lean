import Verif.Lemmas.RealText
import Mathlib.Data.List.TakeWhile

/-! Lemmas about printed real numbers. -/

namespace ICPC.Fp

open ICPC.Spec ICPC.Spec.Fp

theorem toDigits_eq (n : Nat) : Nat.toDigits 10 n = natDecimal n := by
  induction n using Nat.strongRecOn with
  | _ n ih =>
    rw [natDecimal, Nat.toDigits_eq_if (by omega)]
    split
    · next h =>
      have : ∀ n < 10, n.digitChar = Char.ofNat (48 + n) := by decide
      rw [this n h]
    · next h =>
      have : ∀ n < 10, n.digitChar = Char.ofNat (48 + n) := by decide
      rw [this (n % 10) (by omega), ih (n / 10) (by omega)]

theorem digits_natDecimal (n : Nat) : Digits (natDecimal n) := (digits_iff _).2 (natDecimal_digits n)

theorem positional_natDecimal (n : Nat) : positional (natDecimal n) = n := by
  rw [← digitsValue_eq, natDecimal_value]

theorem length_natDecimal_le : ∀ (w n : Nat), 1 ≤ w → n < 10 ^ w → (natDecimal n).length ≤ w := by
  intro w
  induction w with
  | zero => intro n h; omega
  | succ w ih =>
    intro n _ h
    rw [natDecimal]
    split
    · simp
    · next h10 =>
      have hw : 1 ≤ w := by
        rcases Nat.eq_zero_or_pos w with rfl | h'
        · simp at h; omega
        · exact h'
      have := ih (n / 10) hw (by rw [pow_succ] at h; omega)
      simp only [List.length_append, List.length_singleton]
      omega

theorem le_length_natDecimal : ∀ (w n : Nat), 10 ^ w ≤ n → w + 1 ≤ (natDecimal n).length := by
  intro w
  induction w with
  | zero => intro n _; exact List.length_pos_of_ne_nil (natDecimal_ne_nil n)
  | succ w ih =>
    intro n h
    rw [natDecimal]
    have h1 : 1 ≤ 10 ^ w := Nat.one_le_pow _ _ (by norm_num)
    rw [pow_succ] at h
    rw [if_neg (by omega)]
    have := ih (n / 10) (by omega)
    simp only [List.length_append, List.length_singleton]
    omega

theorem positional_zeros (k : Nat) (ds : List Char) : positional (List.replicate k '0' ++ ds) = positional ds := by
  induction k with
  | zero => rfl
  | succ k ih => rw [List.replicate_succ, List.cons_append, positional, ih]; simp

theorem positional_append_zeros (ds : List Char) (k : Nat) : positional (ds ++ List.replicate k '0') = positional ds * 10 ^ k := by
  rw [positional_append]
  have := positional_zeros k []
  rw [List.append_nil] at this
  rw [this, List.length_replicate]
  rfl

theorem digits_append {a b : List Char} (ha : Digits a) (hb : Digits b) : Digits (a ++ b) := by
  intro c hc
  rcases List.mem_append.1 hc with h | h
  · exact ha c h
  · exact hb c h

theorem digits_zeros (k : Nat) : Digits (List.replicate k '0') := by
  intro c hc
  rw [(List.mem_replicate.1 hc).2]
  decide

theorem padLeft_digits {w : Nat} {ds : List Char} (h : Digits ds) : Digits (padLeft w ds) := digits_append (digits_zeros _) h

theorem padLeft_length {w : Nat} {ds : List Char} (h : ds.length ≤ w) : (padLeft w ds).length = w := by
  unfold padLeft
  rw [List.length_append, List.length_replicate]
  omega

/-- The sign in front of a number. -/
theorem sign_neg (neg : Bool) : Sign (if neg then ['-'] else []) (if neg then -1 else 1) := by
  cases neg
  · exact .inl ⟨rfl, rfl⟩
  · exact .inr (.inr ⟨rfl, rfl⟩)

/-- The parts of a number that is printed with a fixed number of decimals. -/
theorem printFixed_parts (prec : ℕ) (neg : Bool) (a : ℚ) : ∃ n : ℕ, n = (rne (a * 10 ^ prec)).toNat ∧ ∃ b : List Char,
    printFixed prec neg a = (if neg then ['-'] else []) ++ (natDecimal (n / 10 ^ prec) ++ ((if prec = 0 then [] else ['.']) ++ b)) ∧
    Digits b ∧ b.length = prec ∧ positional (natDecimal (n / 10 ^ prec) ++ b) = n := by
  refine ⟨_, rfl, ?_⟩
  generalize hn : (rne (a * 10 ^ prec)).toNat = n
  unfold printFixed
  rw [hn]
  simp only [toDigits_eq]
  rcases Nat.eq_zero_or_pos prec with rfl | hp
  · refine ⟨[], by simp, by simp [Digits], rfl, ?_⟩
    rw [List.append_nil, positional_natDecimal]; simp
  · have hlt : n % 10 ^ prec < 10 ^ prec := Nat.mod_lt _ (by positivity)
    have hlen := length_natDecimal_le prec _ hp hlt
    refine ⟨padLeft prec (natDecimal (n % 10 ^ prec)), ?_, padLeft_digits (digits_natDecimal _), padLeft_length hlen, ?_⟩
    · simp [show prec ≠ 0 by omega]
    · rw [positional_append, padLeft_length hlen, positional_natDecimal]
      unfold padLeft
      rw [positional_zeros, positional_natDecimal]
      exact Nat.div_add_mod' n _

theorem printFixed_denotes (prec : ℕ) (neg : Bool) {a : ℚ} (ha : 0 ≤ a) :
    Denotes (printFixed prec neg a) ((if neg then -1 else 1) * (rne (a * 10 ^ prec) / 10 ^ prec)) := by
  obtain ⟨n, hn, b, h1, h2, h3, h4⟩ := printFixed_parts prec neg a
  have hr : 0 ≤ rne (a * 10 ^ prec) := by
    have := rne_mono (x := ((0 : ℤ) : ℚ)) (y := a * 10 ^ prec) (by push_cast; positivity)
    rwa [rne_int] at this
  have hnr : (rne (a * 10 ^ prec) : ℚ) = (n : ℚ) := by
    have : (n : ℤ) = rne (a * 10 ^ prec) := by omega
    rw [← this]; rfl
  rw [h1]
  refine ⟨_, natDecimal (n / 10 ^ prec), (if prec = 0 then [] else ['.']), b, [], (if neg then -1 else 1), 0, by simp, sign_neg neg,
    digits_natDecimal _, h2, by simp [natDecimal_ne_nil], ?_, .inl ⟨rfl, rfl⟩, ?_⟩
  · rcases Nat.eq_zero_or_pos prec with rfl | hp
    · right; exact ⟨rfl, List.length_eq_zero_iff.1 h3⟩
    · left; rw [if_neg (by omega)]
  · rw [h4, h3, hnr]
    have : (10 : ℚ) ^ (0 - (prec : ℤ)) = (10 ^ prec)⁻¹ := by rw [zero_sub, zpow_neg, zpow_natCast]
    rw [this, div_eq_mul_inv]
    cases neg <;> simp

theorem strip_split (ds : List Char) : ∃ k, ds = stripZeros ds ++ List.replicate k '0' := by
  unfold stripZeros
  have h := List.takeWhile_append_dropWhile (p := fun c : Char => decide (c = '0')) (l := ds.reverse)
  refine ⟨(ds.reverse.takeWhile fun c => decide (c = '0')).length, ?_⟩
  have h2 : ds.reverse.takeWhile (fun c => decide (c = '0')) = List.replicate (ds.reverse.takeWhile fun c => decide (c = '0')).length '0' := by
    rw [List.eq_replicate_iff]
    refine ⟨rfl, fun c hc => ?_⟩
    simpa using List.mem_takeWhile_imp hc
  have h3 := congrArg List.reverse h
  rw [List.reverse_append, List.reverse_reverse] at h3
  conv_lhs => rw [← h3]
  congr 1
  conv_lhs => rw [h2]
  simp

theorem digits_of_append {a b : List Char} (h : Digits (a ++ b)) : Digits a ∧ Digits b :=
  ⟨fun c hc => h c (List.mem_append_left _ hc), fun c hc => h c (List.mem_append_right _ hc)⟩

/-- A number whose fraction is printed without the zeros at its end. -/
theorem denotes_fraction {sign a fr ex : List Char} {s e : ℤ} (hs : Sign sign s) (ha : Digits a) (h0 : a ≠ []) (hf : Digits fr) (he : Exponent ex e) :
    Denotes (sign ++ (a ++ (fraction fr ++ ex))) (s * (positional (a ++ fr) * 10 ^ (e - fr.length))) := by
  obtain ⟨k, hk⟩ := strip_split fr
  have hd : Digits (stripZeros fr) := by
    rw [hk] at hf
    exact (digits_of_append hf).1
  have hval : (positional (a ++ fr) : ℚ) * 10 ^ (e - fr.length) = positional (a ++ stripZeros fr) * 10 ^ (e - (stripZeros fr).length) := by
    have key : ∀ z, fr = z ++ List.replicate k '0' → (positional (a ++ fr) : ℚ) * 10 ^ (e - fr.length) = positional (a ++ z) * 10 ^ (e - z.length) := by
      rintro z rfl
      rw [← List.append_assoc, positional_append_zeros, List.length_append, List.length_replicate]
      push_cast
      rw [show e - (z.length : ℤ) = (e - ((z.length : ℤ) + k)) + k by ring, zpow_add₀ (by norm_num : (10 : ℚ) ≠ 0), zpow_natCast]
      ring
    exact key _ hk
  rw [hval]
  unfold fraction
  split
  · next h =>
    have h := List.isEmpty_iff.1 h
    rw [h]
    exact ⟨sign, a, [], [], ex, s, e, by simp, hs, ha, by simp [Digits], by simpa using h0, .inr ⟨rfl, rfl⟩, he, by simp⟩
  · exact ⟨sign, a, ['.'], stripZeros fr, ex, s, e, by simp, hs, ha, hd, by simp [h0], .inl rfl, he, rfl⟩

/-- The six significant digits. -/
theorem significant_spec {a : ℚ} (ha : 0 < a) : 10 ^ 5 ≤ (significant a).1 ∧ (significant a).1 < 10 ^ 6 ∧
    |(significant a).1 * 10 ^ ((significant a).2 - 5) - a| ≤ 1 / 2 * 10 ^ (Int.log 10 a - 5) := by
  have h10 : ∀ e : ℤ, (0 : ℚ) < 10 ^ e := fun e => zpow_pos (by norm_num) e
  have hlo := Int.zpow_log_le_self (b := 10) (by norm_num) ha
  have hhi := Int.lt_zpow_succ_log_self (b := 10) (by norm_num) a
  push_cast at hlo hhi
  generalize hL : Int.log 10 a = L at *
  have e1 : (10 : ℚ) ^ L = 10 ^ 5 * 10 ^ (L - 5) := by
    rw [show L = 5 + (L - 5) by ring, zpow_add₀ (by norm_num)]; norm_num
  have e2 : (10 : ℚ) ^ (L + 1) = 10 ^ 6 * 10 ^ (L - 5) := by
    rw [show L + 1 = 6 + (L - 5) by ring, zpow_add₀ (by norm_num)]; norm_num
  have m1 : 10 ^ 5 ≤ rne (a / 10 ^ (L - 5)) := by
    have := rne_mono (x := ((10 ^ 5 : ℤ) : ℚ)) (y := a / 10 ^ (L - 5)) (by
      rw [le_div_iff₀ (h10 _)]; push_cast; linarith)
    rwa [rne_int] at this
  have m2 : rne (a / 10 ^ (L - 5)) ≤ 10 ^ 6 := by
    have := rne_mono (x := a / 10 ^ (L - 5)) (y := ((10 ^ 6 : ℤ) : ℚ)) (by
      rw [div_le_iff₀ (h10 _)]; push_cast; linarith)
    rwa [rne_int] at this
  have herr : |(rne (a / 10 ^ (L - 5)) : ℚ) * 10 ^ (L - 5) - a| ≤ 1 / 2 * 10 ^ (L - 5) := by
    have h := rne_err (a / 10 ^ (L - 5))
    have e : (rne (a / 10 ^ (L - 5)) : ℚ) * 10 ^ (L - 5) - a = (rne (a / 10 ^ (L - 5)) - a / 10 ^ (L - 5)) * 10 ^ (L - 5) := by
      have := (h10 (L - 5)).ne'
      field_simp
    rw [e, abs_mul, abs_of_pos (h10 _)]
    exact mul_le_mul_of_nonneg_right h (h10 _).le
  unfold significant
  simp only [hL]
  split
  · next h =>
    refine ⟨le_rfl, by norm_num, ?_⟩
    rw [h] at herr
    have e3 : ((10 ^ 5 : ℤ) : ℚ) * 10 ^ (L + 1 - 5) = ((10 ^ 6 : ℤ) : ℚ) * 10 ^ (L - 5) := by
      rw [show L + 1 - 5 = 1 + (L - 5) by ring, zpow_add₀ (by norm_num)]; push_cast; ring
    rw [e3]
    exact herr
  · next h => exact ⟨m1, lt_of_le_of_ne m2 h, herr⟩

theorem printGeneral_denotes (neg : Bool) {a : ℚ} (ha : 0 ≤ a) : ∃ v : ℚ, Denotes (printGeneral neg a) ((if neg then -1 else 1) * v) ∧
    (a = 0 → v = 0) ∧ (0 < a → v = (significant a).1 * 10 ^ ((significant a).2 - 5)) := by
  have hsg : Sign (if neg then ['-'] else []) (if neg then -1 else 1) := sign_neg neg
  unfold printGeneral
  rcases ha.eq_or_lt with rfl | hpos
  · refine ⟨0, ?_, fun _ => rfl, fun h => absurd h (lt_irrefl _)⟩
    rw [if_pos rfl]
    exact ⟨_, ['0'], [], [], [], _, 0, by simp, hsg, by simp [Digits], by simp [Digits], by simp, .inr ⟨rfl, rfl⟩, .inl ⟨rfl, rfl⟩, by simp [positional]⟩
  · rw [if_neg hpos.ne']
    obtain ⟨h1, h2, -⟩ := significant_spec hpos
    generalize significant a = p at h1 h2
    obtain ⟨m, x⟩ := p
    dsimp only at h1 h2 ⊢
    obtain ⟨n, rfl⟩ : ∃ n : ℕ, m = n := ⟨m.toNat, by omega⟩
    rw [Int.toNat_natCast, toDigits_eq]
    have hn1 : 10 ^ 5 ≤ n := by exact_mod_cast h1
    have hn2 : n < 10 ^ 6 := by exact_mod_cast h2
    have hlen : (natDecimal n).length = 6 := le_antisymm (length_natDecimal_le 6 n (by norm_num) hn2) (le_length_natDecimal 5 n hn1)
    have hdig := digits_natDecimal n
    have htake : ∀ k, Digits ((natDecimal n).take k) ∧ Digits ((natDecimal n).drop k) := by
      intro k
      have := hdig
      rw [← List.take_append_drop k (natDecimal n)] at this
      exact digits_of_append this
    refine ⟨_, ?_, fun h => absurd h hpos.ne', fun _ => rfl⟩
    have hs : (((if neg then -1 else 1 : ℤ)) : ℚ) = if neg then -1 else 1 := by cases neg <;> simp
    by_cases hx : -4 ≤ x ∧ x < 6
    · rw [if_pos hx]
      by_cases hx0 : 0 ≤ x
      · rw [if_pos hx0]
        obtain ⟨k, rfl⟩ : ∃ k : ℕ, x = k := ⟨x.toNat, by omega⟩
        rw [Int.toNat_natCast]
        have hne : (natDecimal n).take (k + 1) ≠ [] := by
          intro h
          have := congrArg List.length h
          rw [List.length_take, hlen, List.length_nil] at this
          omega
        have := denotes_fraction (ex := []) hsg (htake (k + 1)).1 hne (htake (k + 1)).2 (.inl ⟨rfl, rfl⟩ : Exponent [] 0)
        rw [List.take_append_drop, positional_natDecimal, List.length_drop, hlen, hs] at this
        rw [List.append_nil, show (0 : ℤ) - ((6 - (k + 1) : ℕ) : ℤ) = k - 5 by omega] at this
        exact_mod_cast this
      · rw [if_neg hx0]
        have := denotes_fraction (a := ['0']) (ex := []) hsg (by simp [Digits]) (by simp)
          (digits_append (digits_zeros (-x - 1).toNat) hdig) (.inl ⟨rfl, rfl⟩ : Exponent [] 0)
        rw [show ['0'] ++ (List.replicate (-x - 1).toNat '0' ++ natDecimal n) = List.replicate ((-x - 1).toNat + 1) '0' ++ natDecimal n by
          rw [List.replicate_succ]; rfl, positional_zeros, positional_natDecimal, hs, List.append_nil, List.length_append,
          List.length_replicate, hlen, show (0 : ℤ) - (((-x - 1).toNat + 6 : ℕ) : ℤ) = x - 5 by omega] at this
        exact_mod_cast this
    · rw [if_neg hx]
      have hne : (natDecimal n).take 1 ≠ [] := by
        intro h
        have := congrArg List.length h
        rw [List.length_take, hlen, List.length_nil] at this
        omega
      have hex : Exponent ('e' :: ((if x < 0 then ['-'] else ['+']) ++ padLeft 2 (natDecimal x.natAbs))) x := by
        refine .inr ⟨'e', _, if x < 0 then -1 else 1, _, rfl, .inl rfl, ?_, ?_, padLeft_digits (digits_natDecimal _), ?_⟩
        · split
          · exact .inr (.inr ⟨rfl, rfl⟩)
          · exact .inr (.inl ⟨rfl, rfl⟩)
        · unfold padLeft; simp [natDecimal_ne_nil]
        · unfold padLeft
          rw [positional_zeros, positional_natDecimal]
          split <;> omega
      have := denotes_fraction hsg (htake 1).1 hne (htake 1).2 hex
      rw [List.take_append_drop, positional_natDecimal, List.length_drop, hlen, hs, show x - ((6 - 1 : ℕ) : ℤ) = x - 5 by norm_num] at this
      convert this using 1
      · rw [toDigits_eq]
        by_cases hx' : x < 0 <;> simp [hx']
      · simp

end ICPC.Fp
