import Verif.Lemmas.RealStream
import Verif.Props.Input
import Verif.Props.Float
import Verif.Props.SvgText

/-!
# C80, C81, C82: real numbers as text

In every binary floating point format: what is read, what is written, and what becomes of numbers that are written and read
again.
-/

namespace ICPC.Props

open ICPC.Fp ICPC.Spec ICPC.Spec.Fp

/-! ## C80: reading -/

/-- **C80.** A text is a notation of at most one number. -/
theorem C80_unique {t : List Char} {q q' : ℚ} (h : Denotes t q) (h' : Denotes t q') : q = q' := by
  rw [← exactOf_denotes h, exactOf_denotes h']

private theorem inRange_some {F : Format} {q : ℚ} (h : InRange F q) : ∃ v, valueOf F q = some (.fin v) ∧ Nearest F q v := by
  rcases hv : valueOf F q with _ | x
  · exact absurd h (valueOf_none.1 hv)
  · obtain ⟨v, rfl, hn, -⟩ := valueOf_some hv
    exact ⟨v, rfl, hn⟩

private theorem some_inRange {F : Format} {q : ℚ} {x : Flt} (h : valueOf F q = some x) : InRange F q := by
  by_contra hc
  rw [valueOf_none.2 hc] at h; cases h

/-- **C80.** `isReal` accepts exactly the decimal notations of numbers in the range of the format, and yields a number of the
format that is nearest to the one that was written. -/
theorem C80_isReal (F : Format) (t : List Char) :
    ((isReal F t).value = true ↔ ∃ q, Denotes t q ∧ InRange F q) ∧
      ∀ q, Denotes t q → InRange F q → ∃ v, (isReal F t).reason = some (.fin v) ∧ Nearest F q v := by
  have key : ∀ q, Denotes t q → isReal F t = match valueOf F q with
      | none => { value := false }
      | some v => { value := true, reason := some v } := by
    intro q hq
    have : REAL_REGEX.matches t = true := (matches_iff _ _).2 ((realRegex_iff t).2 ⟨q, hq⟩)
    unfold isReal
    rw [this, parse_denotes hq]
    rfl
  refine ⟨⟨fun h => ?_, ?_⟩, ?_⟩
  · have hm : REAL_REGEX.matches t = true := by
      by_contra hc
      rw [Bool.not_eq_true] at hc
      unfold isReal at h
      rw [hc] at h
      simp at h
    obtain ⟨q, hq⟩ := (realRegex_iff t).1 ((matches_iff _ _).1 hm)
    refine ⟨q, hq, ?_⟩
    rw [key q hq] at h
    rcases hv : valueOf F q with _ | x
    · rw [hv] at h; simp at h
    · exact some_inRange hv
  · rintro ⟨q, hq, hr⟩
    obtain ⟨v, hv, -⟩ := inRange_some hr
    rw [key q hq, hv]
  · intro q hq hr
    obtain ⟨v, hv, hn⟩ := inRange_some hr
    exact ⟨v, by rw [key q hq, hv], hn⟩

/-- **C80.** `real()` of a strict stream accepts exactly the decimal notations of numbers in the range of the format; it returns
a number of the format nearest to the one in the input, never an infinity or NaN. -/
theorem C80_real (cfg : StreamCfg) (hs : cfg.spaceSensitive = true) (F : Format) (a r : Flt) :
    (∀ s x rest, Stream.real cfg (realOps F a r) s = .ok (x, rest) →
      ∃ text q v, s = text ++ rest ∧ Delimited rest ∧ Denotes text q ∧ InRange F q ∧ x = .fin v ∧ Nearest F q v) ∧
    (∀ text rest q, Denotes text q → InRange F q → Delimited rest →
      ∃ v, Stream.real cfg (realOps F a r) (text ++ rest) = .ok (.fin v, rest) ∧ Nearest F q v) := by
  constructor
  · intro s x rest h
    obtain ⟨text, h1, h2, h3⟩ := (strict_real (realOps F a r) hs s x rest).1 h
    obtain ⟨q, hq, hv⟩ := (parse_fold cfg F text x).1 h2
    obtain ⟨v, rfl, hn, -⟩ := valueOf_some hv
    exact ⟨text, q, v, h1, h3, hq, some_inRange hv, rfl, hn⟩
  · intro text rest q hq hr hd
    obtain ⟨v, hv, hn⟩ := inRange_some hr
    exact ⟨v, (strict_real (realOps F a r) hs _ _ rest).2 ⟨text, rfl, (parse_fold cfg F text _).2 ⟨q, hq, hv⟩, hd⟩, hn⟩

private theorem lt_fin (x y : ℚ) : Fp.lt (.fin x) (.fin y) = true ↔ x < y := by
  unfold Fp.lt
  simp only [Fp.le, Bool.and_eq_true, decide_eq_true_eq, Bool.not_eq_true', decide_eq_false_iff_not]
  constructor
  · rintro ⟨-, h⟩; exact not_le.1 h
  · intro h; exact ⟨h.le, not_le.2 h⟩

private theorem le_fin (x y : ℚ) : Fp.le (.fin x) (.fin y) = true ↔ x ≤ y := by
  simp [Fp.le]

private theorem close_self (F : Format) {a r : Flt} (ha : Tolerance a) (hr : Tolerance r) (x : Flt) : (realOps F a r).close x x = true := by
  unfold realOps
  simp only [C77_refl F x a r ha hr]

/-- **C80.** `real(lower, upper)` of a strict stream accepts every notation of every number from `lower` to `upper`, both
included, and returns a nearest number of the format. -/
theorem C80_bounded (cfg : StreamCfg) (hs : cfg.spaceSensitive = true) (F : Format) {a r : Flt} (ha : Tolerance a) (hr : Tolerance r)
    {l u : ℚ} (hl : Rep F l) (hu : Rep F u) (text rest : List Char) (q : ℚ) (hq : Denotes text q) (hR : InRange F q)
    (h1 : l ≤ q) (h2 : q ≤ u) (hd : Delimited rest) :
    ∃ v, Stream.realBounded cfg (realOps F a r) (.fin l) (.fin u) (text ++ rest) = .ok (.fin v, rest) ∧ Nearest F q v := by
  obtain ⟨v, hv, hn⟩ := inRange_some hR
  refine ⟨v, (strict_realBounded (realOps F a r) hs _ _ _ _ rest).2 ⟨text, rfl, ?_, hd⟩, hn⟩
  obtain ⟨p1, p2, p3⟩ := (parse_fold cfg F text _).2 ⟨q, hq, hv⟩
  refine ⟨p1, p2, p3, ?_⟩
  rcases (nearest_le hn hu h2).eq_or_lt with rfl | hlt
  · right; left; exact close_self F ha hr _
  · right; right
    exact ⟨rfl, (le_fin l v).2 (nearest_ge hn hl h1), (lt_fin v u).2 hlt⟩

/-- **C80.** `real(lower, upper)` of a strict stream accepts nothing else than notations of numbers whose value in the format is
in `[lower, upper)` or differs from one of the bounds by no more than the tolerances (up to the rounding errors of the
comparison). -/
theorem C80_bounded_only (cfg : StreamCfg) (hs : cfg.spaceSensitive = true) (F : Format) (hF : F.emin + 2 * F.p ≤ 0) {a r : Flt}
    (ha : Tolerance a) (hr : Tolerance r) {l u : ℚ} (hl : Rep F l) (hu : Rep F u) (s rest : List Char) (x : Flt)
    (h : Stream.realBounded cfg (realOps F a r) (.fin l) (.fin u) s = .ok (x, rest)) :
    ∃ text q v, s = text ++ rest ∧ Delimited rest ∧ Denotes text q ∧ x = .fin v ∧ Nearest F q v ∧
      ((l ≤ v ∧ v < u) ∨ ∃ e, (e = l ∨ e = u) ∧
        (Within ((1 - unit F) * |v - e|) a ∨ WithinRel ((1 - unit F) ^ 2 * |v - e|) e r)) := by
  obtain ⟨text, h1, ⟨p1, p2, p3, hb⟩, h3⟩ := (strict_realBounded (realOps F a r) hs _ _ s x rest).1 h
  obtain ⟨q, hq, hv⟩ := (parse_fold cfg F text x).1 ⟨p1, p2, p3⟩
  obtain ⟨v, rfl, hn, -⟩ := valueOf_some hv
  refine ⟨text, q, v, h1, h3, hq, rfl, hn, ?_⟩
  have hclose : ∀ e, Rep F e → (realOps F a r).close (.fin v) (.fin e) = true →
      Within ((1 - unit F) * |v - e|) a ∨ WithinRel ((1 - unit F) ^ 2 * |v - e|) e r := by
    intro e he hc
    obtain ⟨b, hbq⟩ := (C77_throws F (.fin v) (.fin e) a r).2 ha hr
    have : b = true := by
      unfold realOps at hc
      simpa only [hbq] using hc
    rw [this] at hbq
    exact C77_rejects F hF hn.1 he ha hr hbq
  rcases hb with hb | hb | ⟨-, hb1, hb2⟩
  · exact .inr ⟨l, .inl rfl, hclose l hl hb⟩
  · exact .inr ⟨u, .inr rfl, hclose u hu hb⟩
  · exact .inl ⟨(le_fin l v).1 hb1, (lt_fin v u).1 hb2⟩

/-- **C80.** A number that `realStrict(lower, upper, minDecimals, maxDecimals)` of a strict stream accepts has a nearest value in
`[lower, upper)`; conversely an optional minus sign, a natural number without leading zeros, a point and further digits are
accepted if their number of decimals is allowed and the number is at least `lower` and at most some number of the format
below `upper`. -/
theorem C80_realStrict (cfg : StreamCfg) (hs : cfg.spaceSensitive = true) (F : Format) (a r : Flt) {l u : ℚ} (hl : Rep F l)
    (minDecimals maxDecimals : Int) :
    (∀ s x rest, Stream.realStrict cfg (realOps F a r) (.fin l) (.fin u) minDecimals maxDecimals s = .ok (x, rest) →
      ∃ text q v, s = text ++ rest ∧ Delimited rest ∧ Denotes text q ∧ x = .fin v ∧ Nearest F q v ∧ l ≤ v ∧ v < u) ∧
    (∀ sign n b rest q w, (sign = [] ∨ sign = ['-']) → Digits b → minDecimals ≤ b.length → (b.length : Int) < maxDecimals →
      Denotes (sign ++ (natDecimal n ++ '.' :: b)) q → InRange F q → l ≤ q → Rep F w → q ≤ w → w < u → Delimited rest →
      ∃ v, Stream.realStrict cfg (realOps F a r) (.fin l) (.fin u) minDecimals maxDecimals ((sign ++ (natDecimal n ++ '.' :: b)) ++ rest) =
        .ok (.fin v, rest) ∧ Nearest F q v) := by
  constructor
  · intro s x rest h
    obtain ⟨text, h1, ⟨p1, p2, p3, -, -, hb1, hb2⟩, h3⟩ := (strict_realStrict (realOps F a r) hs _ _ _ _ s x rest).1 h
    have hreal : Lang REAL_REGEX (foldOf cfg text) := by
      obtain ⟨sign, i, dot, b, e, hsg, hd, ⟨n, rfl⟩, hb⟩ := (strictReal_iff _).1 p2
      rw [realRegex_iff, e]
      have hsn : ∃ s, Sign sign s := by
        rcases hsg with rfl | rfl
        · exact ⟨1, .inl ⟨rfl, rfl⟩⟩
        · exact ⟨-1, .inr (.inr ⟨rfl, rfl⟩)⟩
      obtain ⟨s', hs'⟩ := hsn
      rcases hd with rfl | rfl
      · exact ⟨_, sign, natDecimal n ++ b, [], [], [], s', 0, by simp, hs', digits_append (digits_natDecimal n) ((digits_iff b).2 hb),
          by simp [Digits], by simp [natDecimal_ne_nil], .inr ⟨rfl, rfl⟩, .inl ⟨rfl, rfl⟩, rfl⟩
      · exact ⟨_, sign, natDecimal n, ['.'], b, [], s', 0, by simp, hs', digits_natDecimal n, (digits_iff b).2 hb,
          by simp [natDecimal_ne_nil], .inl rfl, .inl ⟨rfl, rfl⟩, rfl⟩
    obtain ⟨q, hq, hv⟩ := (parse_fold cfg F text x).1 ⟨p1, hreal, p3⟩
    obtain ⟨v, rfl, hn, -⟩ := valueOf_some hv
    exact ⟨text, q, v, h1, h3, hq, rfl, hn, (le_fin l v).1 hb1, (lt_fin v u).1 hb2⟩
  · intro sign n b rest q w hsg hb hmin hmax hq hR hlq hw hqw hwu hd
    obtain ⟨v, hv, hn⟩ := inRange_some hR
    refine ⟨v, (strict_realStrict (realOps F a r) hs _ _ _ _ _ _ rest).2 ⟨_, rfl, ?_, hd⟩, hn⟩
    obtain ⟨p1, -, p3⟩ := (parse_fold cfg F _ _).2 ⟨q, hq, hv⟩
    have hnl : ∀ c ∈ sign ++ (natDecimal n ++ '.' :: b), isLetterC c = false := by
      intro c hc
      simp only [List.mem_append, List.mem_cons] at hc
      rcases hc with hc | hc | hc | hc
      · rcases hsg with rfl | rfl
        · cases hc
        · rw [List.mem_singleton.1 hc]; decide
      · exact digits_nonletter (digits_natDecimal n) c hc
      · rw [hc]; decide
      · exact digits_nonletter hb c hc
    refine ⟨p1, ?_, p3, ⟨b.length, ?_, hmin, hmax⟩, rfl, (le_fin l v).2 (nearest_ge hn hl hlq),
      (lt_fin v u).2 (lt_of_le_of_lt (nearest_le hn hw hqw) hwu)⟩
    · rw [foldOf_nonletter cfg _ hnl, strictReal_iff]
      exact ⟨sign, natDecimal n, ['.'], b, by simp, hsg, .inr rfl, ⟨n, rfl⟩, (digits_iff b).1 hb⟩
    · refine .inr ⟨sign ++ natDecimal n, b, by simp, ?_, rfl⟩
      intro hc
      rcases List.mem_append.1 hc with hc | hc
      · rcases hsg with rfl | rfl
        · cases hc
        · exact absurd hc (by decide)
      · have := (digits_iff _).1 (digits_natDecimal n) _ hc
        exact absurd this (by decide)

/-! ## C81: writing -/

private theorem shown (x : ℚ) : ∃ w : ℚ, Denotes (printReal (.fin x)) w ∧ (∃ k : ℤ, w = k / 10 ^ 6) ∧
    (∀ k : ℤ, |w - x| ≤ |k / 10 ^ 6 - x|) ∧ |w - x| ≤ 1 / 2 / 10 ^ 6 := by
  have hden := printFixed_denotes DEFAULT_PRECISION (decide (x < 0)) (abs_nonneg x)
  unfold DEFAULT_PRECISION at hden
  have hscale : ∀ y : ℚ, |y / 10 ^ 6 - x| = |y - x * 10 ^ 6| / 10 ^ 6 := by
    intro y
    rw [show y / 10 ^ 6 - x = (y - x * 10 ^ 6) / 10 ^ 6 by ring, abs_div]
    norm_num
  rcases lt_or_ge x 0 with hx | hx
  · rw [decide_eq_true hx, if_pos rfl, abs_of_neg hx] at hden
    refine ⟨_, by rw [show printReal (.fin x) = printFixed 6 (decide (x < 0)) |x| from rfl, decide_eq_true hx, abs_of_neg hx]; exact hden,
      ⟨-rne (-x * 10 ^ 6), by push_cast; ring⟩, fun k => ?_, ?_⟩
    · have := rne_near (-x * 10 ^ 6) (-k)
      rw [show (-1 : ℚ) * (rne (-x * 10 ^ 6) / 10 ^ 6) = (-(rne (-x * 10 ^ 6) : ℚ)) / 10 ^ 6 by ring, hscale, hscale]
      apply div_le_div_of_nonneg_right _ (by norm_num)
      rw [← abs_neg, show -(-(rne (-x * 10 ^ 6) : ℚ) - x * 10 ^ 6) = rne (-x * 10 ^ 6) - (-x * 10 ^ 6) by ring,
        ← abs_neg ((k : ℚ) - x * 10 ^ 6), show -((k : ℚ) - x * 10 ^ 6) = -k - (-x * 10 ^ 6) by ring]
      exact_mod_cast this
    · have := rne_err (-x * 10 ^ 6)
      rw [show (-1 : ℚ) * (rne (-x * 10 ^ 6) / 10 ^ 6) = (-(rne (-x * 10 ^ 6) : ℚ)) / 10 ^ 6 by ring, hscale]
      apply div_le_div_of_nonneg_right _ (by norm_num)
      rw [← abs_neg, show -(-(rne (-x * 10 ^ 6) : ℚ) - x * 10 ^ 6) = rne (-x * 10 ^ 6) - (-x * 10 ^ 6) by ring]
      exact this
  · rw [decide_eq_false (not_lt.2 hx), if_neg (by simp), abs_of_nonneg hx] at hden
    refine ⟨_, by rw [show printReal (.fin x) = printFixed 6 (decide (x < 0)) |x| from rfl, decide_eq_false (not_lt.2 hx), abs_of_nonneg hx]; exact hden,
      ⟨rne (x * 10 ^ 6), by ring⟩, fun k => ?_, ?_⟩
    · rw [one_mul, hscale, hscale]
      exact div_le_div_of_nonneg_right (rne_near (x * 10 ^ 6) k) (by norm_num)
    · rw [one_mul, hscale]
      exact div_le_div_of_nonneg_right (rne_err (x * 10 ^ 6)) (by norm_num)

/-- **C81.** A finite number is written as an optional minus sign, a natural number without leading zeros, a point and exactly
six digits; the text denotes a nearest multiple of a millionth. -/
theorem C81_text (x : ℚ) : ∃ (n : ℕ) (b : List Char) (w : ℚ),
    printReal (.fin x) = (if x < 0 then ['-'] else []) ++ (natDecimal n ++ '.' :: b) ∧ Digits b ∧ b.length = 6 ∧
    Denotes (printReal (.fin x)) w ∧ (∃ k : ℤ, w = k / 10 ^ 6) ∧ ∀ k : ℤ, |w - x| ≤ |k / 10 ^ 6 - x| := by
  obtain ⟨w, h1, h2, h3, -⟩ := shown x
  obtain ⟨n, -, b, e, hb, hl, -⟩ := printFixed_parts DEFAULT_PRECISION (decide (x < 0)) |x|
  refine ⟨n / 10 ^ DEFAULT_PRECISION, b, w, ?_, hb, hl, h1, h2, h3⟩
  rw [show printReal (.fin x) = printFixed DEFAULT_PRECISION (decide (x < 0)) |x| from rfl, e]
  simp [DEFAULT_PRECISION]

private theorem rep_bound {F : Format} {x : ℚ} (h : Rep F x) : |x| ≤ (2 ^ F.p - 1) * 2 ^ F.emax := by
  obtain ⟨m, e, hm, -, he, rfl⟩ := h
  rw [abs_mul, abs_of_pos (two_zpow_pos e)]
  have h1 : |(m : ℚ)| ≤ 2 ^ F.p - 1 := by
    have : |m| ≤ 2 ^ F.p - 1 := by omega
    exact_mod_cast this
  have h2 : (2 : ℚ) ^ e ≤ 2 ^ F.emax := zpow_le_zpow_right₀ (by norm_num) he
  have h0 : (0 : ℚ) ≤ 2 ^ F.p - 1 := le_trans (abs_nonneg _) h1
  exact mul_le_mul h1 h2 (two_zpow_pos e).le h0

private theorem shown_inRange {F : Format} (h1 : F.emin ≤ -19) (h2 : 0 ≤ F.emax) {x w : ℚ} (hx : Rep F x) {k : ℤ} (hk : w = k / 10 ^ 6)
    (hw : |w - x| ≤ 1 / 2 / 10 ^ 6) : InRange F w := by
  constructor
  · have hb := rep_bound hx
    have hE : (1 : ℚ) ≤ 2 ^ F.emax := one_le_zpow₀ (by norm_num) h2
    have : |w| ≤ |x| + 1 / 2 / 10 ^ 6 := by
      have := abs_add_le (w - x) x
      rw [sub_add_cancel] at this
      linarith
    have h3 : (2 ^ F.p - 1 / 2) * (2 : ℚ) ^ F.emax = (2 ^ F.p - 1) * 2 ^ F.emax + 1 / 2 * 2 ^ F.emax := by ring
    rw [h3]
    norm_num at this ⊢
    linarith
  · rcases eq_or_ne k 0 with rfl | h0
    · left; rw [hk]; simp
    · right
      have h1' : (2 : ℚ) ^ (F.emin - 1) ≤ 2 ^ (-20 : ℤ) := zpow_le_zpow_right₀ (by norm_num) (by omega)
      have h2' : (2 : ℚ) ^ (-20 : ℤ) < 1 / 10 ^ 6 := by norm_num
      have h3' : (1 : ℚ) / 10 ^ 6 ≤ |w| := by
        rw [hk, abs_div, abs_of_pos (show (0 : ℚ) < 10 ^ 6 by norm_num)]
        apply div_le_div_of_nonneg_right _ (by norm_num)
        exact_mod_cast Int.one_le_abs h0
      exact lt_of_le_of_lt h1' (lt_of_lt_of_le h2' h3')

/-- **C81.** A finite number that is written and read again is found equal by `floatEqual` with the default tolerance: in every
format whose smallest positive number is at most `2 ^ -19` and that can represent `1`. -/
theorem C81_roundtrip (F : Format) (h1 : F.emin ≤ -19) (h2 : 0 ≤ F.emax) {x : ℚ} (hx : Rep F x) :
    ∃ y, isReal F (printReal (.fin x)) = { value := true, reason := some (.fin y) } ∧ Rep F y ∧ |y - x| ≤ 1 / 10 ^ 6 ∧
      floatEqual F (.fin y) (.fin x) (DEFAULT_EPS F) (DEFAULT_EPS F) = .ok true := by
  obtain ⟨w, hden, ⟨k, hk⟩, -, herr⟩ := shown x
  have hR := shown_inRange h1 h2 hx hk herr
  obtain ⟨y, hy, hn⟩ := (C80_isReal F _).2 w hden hR
  have hv := (C80_isReal F _).1.2 ⟨w, hden, hR⟩
  have hyx : |y - x| ≤ 1 / 10 ^ 6 := by
    have t1 := hn.2 x hx
    have t2 : |y - x| ≤ |y - w| + |w - x| := abs_sub_le y w x
    rw [abs_sub_comm x w] at t1
    have : |y - x| ≤ 1 / 2 / 10 ^ 6 + 1 / 2 / 10 ^ 6 := by linarith
    linarith
  refine ⟨y, ?_, hn.1, hyx, ?_⟩
  · rcases hi : isReal F (printReal (.fin x)) with ⟨v, re⟩
    rw [hi] at hy hv
    dsimp only at hy hv
    rw [hy, hv]
  · have hp := F.one_le_p
    have he0 : (0 : ℚ) ≤ 1 / 10 ^ 6 := by norm_num
    have hlt : roundMag F (1 / 10 ^ 6) < 2 ^ (F.emax + F.p) := by
      rw [roundMag_lt_iff he0]
      have hE : (1 : ℚ) ≤ 2 ^ F.emax := one_le_zpow₀ (by norm_num) h2
      have hP : (2 : ℚ) ^ 1 ≤ 2 ^ F.p := pow_le_pow_right₀ (by norm_num) hp
      have : (1 : ℚ) * 1 ≤ (2 ^ F.p - 1 / 2) * 2 ^ F.emax := mul_le_mul (by linarith) hE (by norm_num) (by linarith)
      have : (1 : ℚ) / 10 ^ 6 < 1 := by norm_num
      linarith
    have heps : DEFAULT_EPS F = .fin (roundMag F (1 / 10 ^ 6)) := by
      unfold DEFAULT_EPS Fp.round
      rw [abs_of_nonneg he0, if_pos hlt, if_neg (not_lt.2 he0)]
    have ht : Tolerance (DEFAULT_EPS F) := by rw [heps]; exact roundMag_nonneg F he0
    have hmono := roundMag_mono F (abs_nonneg (y - x)) hyx
    have hsub : Fp.abs (Fp.sub F (.fin y) (.fin x)) = .fin (roundMag F |y - x|) := by
      show Fp.abs (Fp.round F (y - x)) = _
      unfold Fp.round
      rw [if_pos (lt_of_le_of_lt hmono hlt)]
      have := roundMag_nonneg F (abs_nonneg (y - x))
      split_ifs
      · simp only [Fp.abs, abs_neg, abs_of_nonneg this]
      · simp only [Fp.abs, abs_of_nonneg this]
    obtain ⟨b, hb⟩ := (C77_throws F (.fin y) (.fin x) (DEFAULT_EPS F) (DEFAULT_EPS F)).2 ht ht
    have h0 : Fp.le (.fin 0) (DEFAULT_EPS F) = true := by
      rw [heps]; exact (le_fin _ _).2 (roundMag_nonneg F he0)
    unfold floatEqual
    rw [h0, judgeAssert_true, ok_bind, ok_bind]
    simp only [isfinite, Bool.and_self, if_true, hsub]
    have : Fp.le (.fin (roundMag F |y - x|)) (DEFAULT_EPS F) = true := by
      rw [heps]; exact (le_fin _ _).2 hmono
    rw [this]
    rfl

/-- **C81.** The value of the format for a number with at most six decimals survives writing and reading unchanged, as long as
it determines these decimals. -/
theorem C81_exact (F : Format) (k : ℤ) {x : ℚ} (hx : round F (k / 10 ^ 6) = .fin x)
    (hk : |x - k / 10 ^ 6| < 1 / 2 / 10 ^ 6) :
    parseReal F (printReal (.fin x)) = some (.fin x) := by
  obtain ⟨w, hden, ⟨j, hj⟩, -, herr⟩ := shown x
  have hjk : j = k := by
    by_contra hne
    have h3 : (1 : ℚ) ≤ |(j : ℚ) - k| := by
      have : (1 : ℤ) ≤ |j - k| := Int.one_le_abs (sub_ne_zero.2 hne)
      exact_mod_cast this
    have h4 : |w - k / 10 ^ 6| ≤ |w - x| + |x - k / 10 ^ 6| := abs_sub_le _ _ _
    rw [hj, ← sub_div, abs_div, abs_of_pos (show (0 : ℚ) < 10 ^ 6 by norm_num)] at h4
    rw [hj] at herr
    have h5 : (1 : ℚ) / 10 ^ 6 ≤ |(j : ℚ) - k| / 10 ^ 6 := div_le_div_of_nonneg_right h3 (by norm_num)
    linarith
  subst hjk
  rw [parse_denotes hden, hj]
  have hz : ¬ (x = 0 ∧ (j / 10 ^ 6 : ℚ) ≠ 0) := by
    rintro ⟨rfl, h0⟩
    rw [zero_sub, abs_neg, abs_div, abs_of_pos (show (0 : ℚ) < 10 ^ 6 by norm_num)] at hk
    have hj0 : j ≠ 0 := by rintro rfl; simp at h0
    have : (1 : ℚ) ≤ |(j : ℚ)| := by exact_mod_cast Int.one_le_abs hj0
    have : (1 : ℚ) / 10 ^ 6 ≤ |(j : ℚ)| / 10 ^ 6 := div_le_div_of_nonneg_right this (by norm_num)
    linarith
  unfold valueOf
  rw [hx]
  dsimp only
  rw [if_neg hz]

/-- **C81.** Infinities and NaN are written as texts that are not accepted as numbers. -/
theorem C81_special (F : Format) (neg : Bool) :
    (isReal F (printReal (.inf neg))).value = false ∧ (isReal F (printReal (.nan neg))).value = false := by
  have key : ∀ t, REAL_REGEX.matches t = false → (isReal F t).value = false := by
    intro t h
    unfold isReal
    rw [h]; rfl
  cases neg
  · exact ⟨key _ (by decide +kernel), key _ (by decide +kernel)⟩
  · exact ⟨key _ (by decide +kernel), key _ (by decide +kernel)⟩

/-- **C81.** A strict stream accepts written numbers with `real()`, and with `realStrict(lower, upper, 6, 7)` if the number is
not within half a millionth of a bound. -/
theorem C81_streams (cfg : StreamCfg) (hs : cfg.spaceSensitive = true) (F : Format) (h1 : F.emin ≤ -19) (h2 : 0 ≤ F.emax) (a r : Flt)
    {x : ℚ} (hx : Rep F x) (rest : List Char) (hd : Delimited rest) :
    (∃ y, Stream.real cfg (realOps F a r) (printReal (.fin x) ++ rest) = .ok (.fin y, rest) ∧ |y - x| ≤ 1 / 10 ^ 6) ∧
    ∀ l u z, Rep F l → Rep F z → l + 1 / 2 / 10 ^ 6 ≤ x → x + 1 / 2 / 10 ^ 6 ≤ z → z < u →
      ∃ y, Stream.realStrict cfg (realOps F a r) (.fin l) (.fin u) 6 7 (printReal (.fin x) ++ rest) = .ok (.fin y, rest) ∧
        |y - x| ≤ 1 / 10 ^ 6 := by
  obtain ⟨w, hden, ⟨k, hk⟩, -, herr⟩ := shown x
  have hR := shown_inRange h1 h2 hx hk herr
  have hyx : ∀ y, Nearest F w y → |y - x| ≤ 1 / 10 ^ 6 := by
    intro y hn
    have t1 := hn.2 x hx
    have t2 : |y - x| ≤ |y - w| + |w - x| := abs_sub_le y w x
    rw [abs_sub_comm x w] at t1
    have : |y - x| ≤ 1 / 2 / 10 ^ 6 + 1 / 2 / 10 ^ 6 := by linarith
    linarith
  refine ⟨?_, ?_⟩
  · obtain ⟨y, hy, hn⟩ := (C80_real cfg hs F a r).2 _ rest w hden hR hd
    exact ⟨y, hy, hyx y hn⟩
  · intro l u z hl hz hlx hxz hzu
    obtain ⟨n, b, w', e, hb, hlen, hden', -, -⟩ := C81_text x
    have := abs_le.1 herr
    obtain ⟨y, hy, hn⟩ := (C80_realStrict cfg hs F a r hl (u := u) 6 7).2 (if x < 0 then ['-'] else []) n b rest w z
      (by split_ifs <;> simp) hb (by rw [hlen]; norm_num) (by rw [hlen]; norm_num) (by rw [← e]; exact hden) hR (by linarith) hz (by linarith) hzu hd
    rw [← e] at hy
    exact ⟨y, hy, hyx y hn⟩

/-- **C81, refuted for the bounds.** A number of the format below the upper bound may be written as the upper bound, which
`realStrict` with the same bounds does not accept. -/
theorem C81_strict_refuted : ∃ x : ℚ, Rep x87 x ∧ 0 ≤ x ∧ x < 1 ∧ printReal (.fin x) = "1.000000".toList ∧
    ∀ y rest, Stream.realStrict strictCfg (realOps x87 (DEFAULT_EPS x87) (DEFAULT_EPS x87)) (.fin 0) (.fin 1) 0 7 (printReal (.fin x)) ≠ .ok (y, rest) := by
  refine ⟨1 - 1 / 2 ^ 30, ⟨2 ^ 30 - 1, -30, by decide +kernel, by decide +kernel, by decide +kernel, by norm_num⟩, by norm_num, by norm_num,
    by decide +kernel, ?_⟩
  intro y rest h
  have : (Stream.realStrict strictCfg (realOps x87 (DEFAULT_EPS x87) (DEFAULT_EPS x87)) (.fin 0) (.fin 1) 0 7 (printReal (.fin (1 - 1 / 2 ^ 30)))).isOk = false := by
    decide +kernel
  rw [h] at this
  cases this

/-! ## C82: numbers in SVG files -/

private theorem attribute_value (q : ℚ) : ∃ v, Denotes (attributeText q) v ∧ |v - q| ≤ 5 / 10 ^ 6 * |q| ∧
    ∀ m e : ℤ, |m| < 10 ^ 6 → q = m * 10 ^ e → v = q := by
  have h10 : ∀ e : ℤ, (0 : ℚ) < 10 ^ e := fun e => zpow_pos (by norm_num) e
  obtain ⟨v, hden, hz, hp⟩ := printGeneral_denotes (decide (q < 0)) (abs_nonneg q)
  have hsq : (if decide (q < 0) = true then (-1 : ℚ) else 1) * |q| = q := by
    by_cases h : q < 0
    · simp [h, abs_of_neg h]
    · simp [h, abs_of_nonneg (not_lt.1 h)]
  have hs1 : |if decide (q < 0) = true then (-1 : ℚ) else 1| = 1 := by split_ifs <;> simp
  refine ⟨_, hden, ?_, ?_⟩
  · have e1 : (if decide (q < 0) = true then (-1 : ℚ) else 1) * v - q = (if decide (q < 0) = true then (-1 : ℚ) else 1) * (v - |q|) := by
      rw [mul_sub, hsq]
    rw [e1, abs_mul, hs1, one_mul]
    rcases (abs_nonneg q).eq_or_lt with h0 | hpos
    · rw [hz h0.symm, ← h0]; simp
    · rw [hp hpos]
      obtain ⟨-, -, h3⟩ := significant_spec hpos
      refine h3.trans ?_
      have hlo := Int.zpow_log_le_self (b := 10) (by norm_num) hpos
      have : (10 : ℚ) ^ (Int.log 10 |q| - 5) = 10 ^ (Int.log 10 |q|) / 10 ^ 5 := by
        rw [zpow_sub₀ (by norm_num)]; norm_num
      rw [this]
      have hlo' : (10 : ℚ) ^ (Int.log 10 |q|) ≤ |q| := by exact_mod_cast hlo
      linarith
  · intro m e hm hq
    rcases (abs_nonneg q).eq_or_lt with h0 | hpos
    · rw [hz h0.symm]
      rw [mul_zero]
      exact (abs_eq_zero.1 h0.symm).symm
    · have key : v = |q| := by
        rw [hp hpos]
        have hlo := Int.zpow_log_le_self (b := 10) (by norm_num) hpos
        have hhi := Int.lt_zpow_succ_log_self (b := 10) (by norm_num) |q|
        set L := Int.log 10 |q| with hL
        have hlo' : (10 : ℚ) ^ L ≤ |q| := by exact_mod_cast hlo
        have hhi' : |q| < (10 : ℚ) ^ (L + 1) := by exact_mod_cast hhi
        have ha : |q| = |m| * 10 ^ e := by rw [hq, abs_mul, abs_of_pos (h10 e)]; push_cast; rfl
        have hLe : L < 6 + e := by
          have : (10 : ℚ) ^ L < 10 ^ (6 + e) := by
            refine lt_of_le_of_lt hlo' ?_
            rw [ha, zpow_add₀ (by norm_num)]
            apply mul_lt_mul_of_pos_right _ (h10 e)
            have : ((|m| : ℤ) : ℚ) < ((10 ^ 6 : ℤ) : ℚ) := Int.cast_lt.2 hm
            push_cast at this ⊢
            exact this
          exact (zpow_lt_zpow_iff_right₀ (by norm_num)).1 this
        obtain ⟨k, hk⟩ : ∃ k : ℕ, (k : ℤ) = e - L + 5 := ⟨(e - L + 5).toNat, by omega⟩
        have hint : |q| / 10 ^ (L - 5) = ((|m| * 10 ^ k : ℤ) : ℚ) := by
          rw [div_eq_iff (h10 _).ne', ha]
          push_cast
          rw [mul_assoc, ← zpow_natCast, hk, ← zpow_add₀ (by norm_num)]
          congr 2; ring
        have hlt : (|m| * 10 ^ k : ℤ) ≠ 10 ^ 6 := by
          intro hc
          rw [hc, div_eq_iff (h10 _).ne'] at hint
          rw [hint] at hhi'
          rw [show L + 1 = 6 + (L - 5) by ring, zpow_add₀ (by norm_num)] at hhi'
          push_cast at hhi'
          norm_num at hhi'
        unfold significant
        rw [← hL, hint, rne_int, if_neg hlt]
        dsimp only
        rw [← hint, div_mul_cancel₀ _ (h10 _).ne']
      rw [key, hsq]

/-- **C82.** The attributes of shapes are decimal notations with a relative error of at most `5e-6`; numbers with at most six
significant decimal digits are written exactly.  The numbers of the view box are notations with an absolute error of at most
half a millionth. -/
theorem C82_numbers (q : ℚ) :
    (∃ v, Denotes (attributeText q) v ∧ |v - q| ≤ 5 / 10 ^ 6 * |q| ∧ ∀ m e : ℤ, |m| < 10 ^ 6 → q = m * 10 ^ e → v = q) ∧
    ∃ v, Denotes (toStringText q) v ∧ |v - q| ≤ 1 / 2 / 10 ^ 6 ∧ ∀ k : ℤ, q = k / 10 ^ 6 → v = q := by
  refine ⟨attribute_value q, ?_⟩
  obtain ⟨w, h1, -, h3, h4⟩ := shown q
  refine ⟨w, h1, h4, ?_⟩
  intro k hk
  have := h3 k
  rw [← hk, sub_self, abs_zero] at this
  exact sub_eq_zero.1 (abs_eq_zero.1 (le_antisymm this (abs_nonneg _)))

private theorem notation_of {num : ℚ → List Char} (h : ∀ q, ∃ v, Denotes (num q) v) : SvgFormat.Notation num := by
  intro q
  obtain ⟨v, hv⟩ := h q
  refine denotes_chars ?_ ?_ hv
  · intro c hc
    refine ⟨?_, ?_, ?_⟩ <;> exact digit_ne hc (by decide)
  · unfold SvgFormat.NumberChar; decide

open Svg SvgFormat in
/-- **C82.** With these notations the file is a well-formed document with exactly the drawn shapes. -/
theorem C82_document (items : List Item) (hall : ∀ it ∈ items, Allowed it) (shift grow : Dimension) (t : List Char)
    (h : file attributeText toStringText items shift grow = some t) :
    ∃ content, Spec.Xml.read t = some (.element "svg".toList
      (rootAttributes toStringText (enlarged (Box.drawAll (shapes items)).viewBox shift grow)) content) ∧
      Spec.Xml.markup content = items.filterMap (node attributeText) :=
  C79_document attributeText toStringText
    (notation_of fun q => (C82_numbers q).1.imp fun _ h => h.1) (notation_of fun q => (C82_numbers q).2.imp fun _ h => h.1) items hall shift grow t h

private theorem attribute_denotes {q v : ℚ} (h : exactOf (attributeText q) = v) : Denotes (attributeText q) v := by
  obtain ⟨w, hw, -⟩ := (C82_numbers q).1
  rw [← h, exactOf_denotes hw]; exact hw

private theorem toString_denotes {q v : ℚ} (h : exactOf (toStringText q) = v) : Denotes (toStringText q) v := by
  obtain ⟨w, hw, -⟩ := (C82_numbers q).2
  rw [← h, exactOf_denotes hw]; exact hw

open Svg in
/-- **C82, refuted.** The end of a line may lie outside of the view box that was computed from it: the box has more digits than
the line. -/
theorem C82_outside_refuted : ∃ x : ℚ, (Box.drawAll [.line ⟨0, 0⟩ ⟨x, 1⟩]).viewBox = (0, -1, x, 1) ∧
    ∃ left width x2, Denotes (toStringText 0) left ∧ Denotes (toStringText x) width ∧ Denotes (attributeText x) x2 ∧ left + width < x2 :=
  ⟨1234567, by decide +kernel, 0, 1234567, 1234570, toString_denotes (by decide +kernel), toString_denotes (by decide +kernel),
    attribute_denotes (by decide +kernel), by norm_num⟩

open Svg in
/-- **C82, refuted.** Points at different places of the plane get the same text. -/
theorem C82_lost_refuted : ∃ p q : Point, p ≠ q ∧ attributeText p.x = attributeText q.x ∧ attributeText p.y = attributeText q.y :=
  ⟨⟨1234567, 0⟩, ⟨1234568, 0⟩, by decide +kernel, by decide +kernel, rfl⟩

open Svg in
/-- **C82, refuted.** The view box of an image of positive size may be written as an empty one. -/
theorem C82_tiny_refuted : ∃ x : ℚ, 0 < x ∧ (Box.drawAll [.line ⟨0, 0⟩ ⟨x, x⟩]).viewBox = (0, -x, x, x) ∧ Denotes (toStringText x) 0 :=
  ⟨1 / 2500000, by norm_num, by decide +kernel, toString_denotes (by decide +kernel)⟩

/-! ## Examples -/

example : isReal x87 "+1.25e-3".toList = { value := true, reason := some (round x87 (1 / 800)) } := by decide +kernel
example : (isReal x87 "1e5000".toList).value = false := by decide +kernel
example : (isReal x87 "1.e".toList).value = false := by decide +kernel
example : isReal x87 ".5".toList = { value := true, reason := some (.fin (1 / 2)) } := by decide +kernel
example : printReal (.fin (-31415926535 / 10000000000)) = "-3.141593".toList := by decide +kernel
example : printReal (.fin (1 / 2 ^ 7)) = "0.007812".toList := by decide +kernel
example : attributeText (-1 / 3) = "-0.333333".toList ∧ attributeText (1 / 30000) = "3.33333e-05".toList ∧
    attributeText (1999999 / 2) = "1e+06".toList ∧ attributeText 100 = "100".toList := by decide +kernel
example : Stream.realBounded strictCfg (realOps x87 (DEFAULT_EPS x87) (DEFAULT_EPS x87)) (.fin 0) (.fin 1) "1.0000001 2".toList =
    .ok (round x87 (10000001 / 10000000), " 2".toList) := by decide +kernel
example : parseReal x87 (printReal (round x87 (1234567 / 10 ^ 6))) = some (round x87 (1234567 / 10 ^ 6)) := by decide +kernel

end ICPC.Props
