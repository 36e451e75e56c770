import Verif.Model.FloatBtrs
import Verif.Props.FloatBinomial

/-!
# C118: `binomial` in floating point, rejection method
-/

namespace ICPC.Props

open MeasureTheory Spec ICPC.Engine ICPC.Fp ICPC.Spec.Fp ICPC.Calls

private theorem step_range {F : Format} {L : Lib} {n m : Int} {p : Flt} {C : BtrsConst} {ws rest : List ℕ}
    (h : btrsStep F L n p C ws = some (.ok (some m), rest)) : 0 ≤ m ∧ m ≤ n := by
  unfold btrsStep at h
  split at h
  · cases h
  · dsimp only at h
    split at h
    · cases h
    · split at h
      · cases h
      · next hr =>
        split at h
        · cases h
        · split at h
          · cases h; omega
          · split at h
            · cases h
            · split at h
              · cases h; omega
              · cases h

private theorem loop_range {F : Format} {L : Lib} {n : Int} {swap : Bool} {p : Flt} {C : BtrsConst} {m : Int} {rest : List ℕ} (fuel : ℕ) :
    ∀ {ws : List ℕ}, btrsLoop F L n swap p C fuel ws = some (.ok m, rest) → 0 ≤ m ∧ m ≤ n := by
  induction fuel with
  | zero => intro ws h; simp [btrsLoop] at h
  | succ fuel ih =>
    intro ws h
    unfold btrsLoop at h
    split at h
    · cases h
    · cases h
    · exact ih h
    · next res ws' hs =>
      cases h
      have := step_range hs
      split <;> omega

/-- **C118**: `binomial(n, p)` returns a number in `[0, n]` for all `n` and `p`, whatever `std::sqrt`, `std::lgamma` and the logarithm of
the rejection method return. -/
theorem C118_range (F : Format) (log log1p : Flt → Flt) (L : Lib) (ε : ℚ) (n m : Int) (p : Flt) (hlog : LogWithin ε log) (hlog1 : Log1pWithin ε log1p)
    (hε : ε < 1) (fuel fuel' : ℕ) (ws rest : List ℕ) (hw : ∀ w ∈ ws, w < 2 ^ 64)
    (h : Fp.binomial F log log1p (btrs F L n fuel') fuel n p ws = some (.ok m, rest)) : 0 ≤ m ∧ m ≤ n :=
  (C117_range F log log1p (btrs F L n fuel') ε n p hlog hlog1 hε fuel ws rest hw (.ok m) (fun _ _ _ _ _ h => loop_range fuel' h) h).1 m rfl

/-! ### One iteration -/

/-- The second half of an iteration. -/
private def second (F : Format) (L : Lib) (n : Int) (p : Flt) (C : BtrsConst) (us : Flt) (res : Int) (v : ℚ) : Out (Option Int) :=
  if le (Fp.round F 0.07) us && le (.fin v) C.vr then .ok (some res)
  else match btrsTest F L n p C us (.fin v) res with
    | .error e => .error e
    | .ok t => .ok (if t then some res else none)

/-- An iteration after its first number. -/
private def afterFirst (F : Format) (L : Lib) (n : Int) (p : Flt) (C : BtrsConst) (x : ℚ) : WordFn (Out (Option Int)) :=
  let u := sub F (.fin x) (.fin (1 / 2))
  let us := sub F (.fin (1 / 2)) (Fp.abs u)
  match llround (floor (add F (mul F (add F (div F (mul F (.fin 2) C.a) us) C.b) u) C.c)) with
  | .error e => fun ws => some (.error e, ws)
  | .ok res => if res < 0 ∨ res > n then fun ws => some (.ok none, ws)
    else WordFn.andThen realWords fun v ws => some (second F L n p C us res v, ws)

private theorem step_eq (F : Format) (L : Lib) (n : Int) (p : Flt) (C : BtrsConst) :
    btrsStep F L n p C = WordFn.andThen realWords (afterFirst F L n p C) := by
  funext ws
  unfold btrsStep
  rw [WordFn.andThen]
  cases realWords ws with
  | none => rfl
  | some q =>
    obtain ⟨x, r⟩ := q
    dsimp only
    unfold afterFirst
    split
    · next e he => rw [he]
    · next res hres =>
      rw [hres]
      dsimp only
      split
      · rfl
      · rw [WordFn.andThen]
        cases realWords r with
        | none => rfl
        | some q =>
          obtain ⟨v, r'⟩ := q
          dsimp only
          unfold second
          split
          · rfl
          · split
            · next e he => rw [he]
            · next t ht => rw [ht]

private theorem ends_pure {α : Type} (o : α) : engine (Yields (fun ws => some (o, ws)) fun _ => True) = 1 := by
  classical
  have h := yields_pure o fun _ => True
  rwa [if_pos trivial] at h

private theorem real_sum : (∑' q, engine (Yields realWords (· = q)) * 1) = 1 := by
  classical
  have h := chance_sum seq_realWords fun _ => True
  simp only [if_true] at h
  rw [← h]
  have := first_ends
  have e : {ω : ℕ → ℕ | ∃ v, First ω v} = Yields realWords fun _ => True := by
    ext ω
    constructor
    · rintro ⟨x, n, rest, hx⟩; exact ⟨n, x, rest, hx, trivial⟩
    · rintro ⟨n, x, rest, hx, -⟩; exact ⟨x, n, rest, hx⟩
  rw [e] at this
  unfold Measure.real at this
  rw [← ENNReal.toReal_one] at this
  exact (ENNReal.toReal_eq_toReal_iff' (measure_ne_top _ _) (by simp)).1 this

private theorem ends_andThen {α : Type} {g : ℚ → WordFn α} (hg : ∀ q, engine (Yields (g q) fun _ => True) = 1) :
    engine (Yields (WordFn.andThen realWords g) fun _ => True) = 1 := by
  rw [chance_andThen seq_realWords]
  simp only [hg]
  exact real_sum

private theorem step_seq (F : Format) (L : Lib) (n : Int) (p : Flt) (C : BtrsConst) :
    Sequential (btrsStep F L n p C) ∧ engine (Yields (btrsStep F L n p C) fun _ => True) = 1 := by
  rw [step_eq]
  refine ⟨seq_andThen seq_realWords fun x => ?_, ends_andThen fun x => ?_⟩
  · unfold afterFirst
    dsimp only
    split
    · exact seq_pure _
    · split
      · exact seq_pure _
      · exact seq_andThen seq_realWords fun v => seq_pure _
  · unfold afterFirst
    dsimp only
    split
    · exact ends_pure _
    · split
      · exact ends_pure _
      · exact ends_andThen fun v => ends_pure _

/-- What ends the loop. -/
private def Done (o : Out (Option Int)) : Prop := o ≠ .ok none

private theorem loop_accepted {F : Format} {L : Lib} {n : Int} {swap : Bool} {p : Flt} {C : BtrsConst} {m : Int} {rest : List ℕ} (fuel : ℕ) :
    ∀ {ws : List ℕ}, btrsLoop F L n swap p C fuel ws = some (.ok m, rest) →
      ∃ res, FirstAccepted (btrsStep F L n p C) Done ws (.ok (some res)) rest ∧ m = if swap then n - res else res := by
  induction fuel with
  | zero => intro ws h; simp [btrsLoop] at h
  | succ fuel ih =>
    intro ws h
    unfold btrsLoop at h
    split at h
    · cases h
    · cases h
    · next ws' hs =>
      obtain ⟨res, h1, h2⟩ := ih h
      exact ⟨res, .later hs (by simp [Done]) h1, h2⟩
    · next res ws' hs =>
      cases h
      exact ⟨res, .now hs (by simp [Done]), rfl⟩

private theorem accepted_loop {F : Format} {L : Lib} {n : Int} {swap : Bool} {p : Flt} {C : BtrsConst} {o : Out (Option Int)} {ws rest : List ℕ}
    (h : FirstAccepted (btrsStep F L n p C) Done ws o rest) : ∀ res, o = .ok (some res) →
      ∃ fuel, btrsLoop F L n swap p C fuel ws = some (.ok (if swap then n - res else res), rest) := by
  induction h with
  | now h1 _ =>
    rintro res rfl
    exact ⟨1, by rw [btrsLoop, h1]⟩
  | @later ws rest rest' a b h1 h2 _ ih =>
    intro res hr
    obtain ⟨fuel, hf⟩ := ih res hr
    have hb : b = .ok none := by
      by_contra hc
      exact h2 hc
    subst hb
    exact ⟨fuel + 1, by rw [btrsLoop, h1]; exact hf⟩

/-- **C118**: the rejection method returns a number with `Q` with the conditional probability of one iteration, given that it does not go on
with another one. -/
theorem C118_iteration (F : Format) (L : Lib) (n : Int) (swap : Bool) (p : Flt) (Q : Int → Prop) :
    let step := btrsStep F L n p (btrsConst F L n p)
    let done := engine.real {ω | ∃ N o rest, step ((List.range N).map ω) = some (o, rest) ∧ o ≠ .ok none}
    0 < done → engine.real {ω | ∃ fuel N m rest, btrs F L n fuel swap p ((List.range N).map ω) = some (.ok m, rest) ∧ Q m} =
      engine.real {ω | ∃ N res rest, step ((List.range N).map ω) = some (.ok (some res), rest) ∧ Q (if swap then n - res else res)} / done := by
  intro step done hpos
  obtain ⟨hs, he⟩ := step_seq F L n p (btrsConst F L n p)
  have h := C115_conditional hs Done (fun o => ∃ res, o = .ok (some res) ∧ Q (if swap then n - res else res)) he hpos
  have e1 : {ω : ℕ → ℕ | ∃ fuel N m rest, btrs F L n fuel swap p ((List.range N).map ω) = some (.ok m, rest) ∧ Q m} =
      {ω | ∃ N a rest, FirstAccepted (btrsStep F L n p (btrsConst F L n p)) Done ((List.range N).map ω) a rest ∧
        ∃ res, a = .ok (some res) ∧ Q (if swap then n - res else res)} := by
    ext ω
    constructor
    · rintro ⟨fuel, N, m, rest, h1, h2⟩
      obtain ⟨res, h3, rfl⟩ := loop_accepted fuel h1
      exact ⟨N, _, rest, h3, res, rfl, h2⟩
    · rintro ⟨N, _, rest, h1, res, rfl, h2⟩
      obtain ⟨fuel, hf⟩ := accepted_loop (swap := swap) h1 res rfl
      exact ⟨fuel, N, _, rest, hf, h2⟩
  have e2 : {ω : ℕ → ℕ | ∃ N res rest, step ((List.range N).map ω) = some (.ok (some res), rest) ∧ Q (if swap then n - res else res)} =
      Yields step fun o => Done o ∧ ∃ res, o = .ok (some res) ∧ Q (if swap then n - res else res) := by
    ext ω
    constructor
    · rintro ⟨N, res, rest, h1, h2⟩; exact ⟨N, _, rest, h1, by simp [Done], res, rfl, h2⟩
    · rintro ⟨N, _, rest, h1, -, res, rfl, h2⟩; exact ⟨N, res, rest, h1, h2⟩
  rw [e1, h, e2]
  rfl

/-! ### A result that is not defined -/

private theorem ge_mul {F : Format} {x y : Flt} {a b c : ℚ} (hx : Fp.le (.fin a) x = true) (hy : Fp.le (.fin b) y = true) (ha : 0 < a) (hb : 0 < b)
    (hc : Rep F c) (h : c ≤ a * b) : Fp.le (.fin c) (mul F x y) = true := by
  cases x with
  | nan s => cases hx
  | inf s =>
    cases s
    · cases y with
      | nan s => cases hy
      | inf s =>
        cases s
        · rfl
        · cases hy
      | fin q =>
        have hq : b ≤ q := of_decide_eq_true hy
        have h1 : q ≠ 0 := by linarith
        have h2 : ¬ q < 0 := by linarith
        simp [mul, h1, h2, Fp.le]
    · cases hx
  | fin r =>
    have hr : a ≤ r := of_decide_eq_true hx
    cases y with
    | nan s => cases hy
    | inf s =>
      cases s
      · have h1 : r ≠ 0 := by linarith
        have h2 : ¬ r < 0 := by linarith
        simp [mul, h1, h2, Fp.le]
      · cases hy
    | fin q =>
      have hq : b ≤ q := of_decide_eq_true hy
      exact le_round hc (h.trans (mul_le_mul hr hq hb.le (by linarith)))

private theorem ge_add {F : Format} {x y : Flt} {a b c : ℚ} (hx : Fp.le (.fin a) x = true) (hy : Fp.le (.fin b) y = true)
    (hc : Rep F c) (h : c ≤ a + b) : Fp.le (.fin c) (add F x y) = true := by
  cases x with
  | nan s => cases hx
  | inf s =>
    cases s
    · cases y with
      | nan s => cases hy
      | inf s =>
        cases s
        · rfl
        · cases hy
      | fin q => rfl
    · cases hx
  | fin r =>
    have hr : a ≤ r := of_decide_eq_true hx
    cases y with
    | nan s => cases hy
    | inf s =>
      cases s
      · rfl
      · cases hy
    | fin q =>
      have hq : b ≤ q := of_decide_eq_true hy
      exact le_round hc (by linarith)

private theorem inf_add {F : Format} {y : Flt} {b : ℚ} (hy : Fp.le (.fin b) y = true) : add F (.inf false) y = .inf false := by
  cases y with
  | nan s => cases hy
  | inf s =>
    cases s
    · rfl
    · cases hy
  | fin q => rfl

private theorem div_zero_inf {F : Format} {x : Flt} {a : ℚ} (hx : Fp.le (.fin a) x = true) (ha : 0 < a) : div F x (.fin 0) = .inf false := by
  cases x with
  | nan s => cases hx
  | inf s =>
    cases s
    · rfl
    · cases hx
  | fin r =>
    have hr : a ≤ r := of_decide_eq_true hx
    have h1 : r ≠ 0 := by linarith
    have h2 : ¬ r < 0 := by linarith
    simp [div, h1, h2]

private theorem rep_of {F : Format} (hp : 8 ≤ F.p) (h1 : F.emin ≤ -10) (h2 : 0 ≤ F.emax) (m e : ℤ) (hm : |m| < 2 ^ 8) (he : -10 ≤ e) (he2 : e ≤ 0) :
    Rep F (m * 2 ^ e) :=
  ⟨m, e, lt_of_lt_of_le hm (pow_le_pow_right₀ (by norm_num) hp), by omega, by omega, rfl⟩

/-- **C118**, refuted: if `real()` returns 1 (which it does, since it rounds), the rejection method divides by zero and calls `std::llround`
of an infinity, whatever `n` and `p` are. -/
theorem C118_defined_refuted (F : Format) (log log1p : Flt → Flt) (L : Lib) (n : ℕ) (p : ℚ) (hFp : 8 ≤ F.p) (hF1 : F.emin ≤ -10) (hF2 : 0 ≤ F.emax)
    (hsqrt : ∀ x, Fp.le (.fin 4) x = true → Fp.le (.fin 2) (L.sqrt x) = true) (hp0 : 0 < p) (hp1 : p ≤ 1 / 2)
    (hlarge : Fp.le (.fin 10) (Fp.mul F (.fin p) (Fp.round F n)) = true) (fuel fuel' : ℕ) :
    0 < engine.real {ω | ∃ N rest, Fp.binomial F log log1p (btrs F L n (fuel' + 1)) fuel n (.fin p) ((List.range N).map ω) = some (.error .ub, rest)} := by
  have R := fun m e hm he he2 => rep_of (F := F) hFp hF1 hF2 m e hm he he2
  have r0 : Rep F 0 := by simpa using R 0 0 (by norm_num) (by norm_num) (by norm_num)
  have rhalf : Rep F (1 / 2) := by simpa using R 1 (-1) (by norm_num) (by norm_num) (by norm_num)
  have r4 : Rep F 4 := by simpa using R 4 0 (by norm_num) (by norm_num) (by norm_num)
  have r1 : Rep F 1 := by simpa using R 1 0 (by norm_num) (by norm_num) (by norm_num)
  have r5 : Rep F 5 := by simpa using R 5 0 (by norm_num) (by norm_num) (by norm_num)
  have r6 : Rep F 6 := by simpa using R 6 0 (by norm_num) (by norm_num) (by norm_num)
  have r10 : Rep F 10 := by simpa using R 10 0 (by norm_num) (by norm_num) (by norm_num)
  have r52 : Rep F (5 / 2) := by
    have := R 5 (-1) (by norm_num) (by norm_num) (by norm_num)
    norm_num at this; exact this
  have r3128 : Rep F (3 / 128) := by
    have := R 3 (-7) (by norm_num) (by norm_num) (by norm_num)
    norm_num at this; exact this
  have r964 : Rep F (9 / 64) := by
    have := R 9 (-6) (by norm_num) (by norm_num) (by norm_num)
    norm_num at this; exact this
  have r332 : Rep F (3 / 32) := by
    have := R 3 (-5) (by norm_num) (by norm_num) (by norm_num)
    norm_num at this; exact this
  have r364 : Rep F (3 / 64) := by
    have := R 3 (-6) (by norm_num) (by norm_num) (by norm_num)
    norm_num at this; exact this
  have r128 : Rep F (1 / 128) := by
    have := R 1 (-7) (by norm_num) (by norm_num) (by norm_num)
    norm_num at this; exact this
  have same : ∀ {z : ℚ}, Rep F z → 0 ≤ z → Fp.round F z = .fin z := by
    intro z hz h0
    obtain ⟨q, hq, -, h1⟩ := round_le hz h0 le_rfl
    have h2 := le_round hz le_rfl
    rw [hq] at h2 ⊢
    have h2 : z ≤ q := of_decide_eq_true h2
    rw [le_antisymm h1 h2]
  have hcomm : Fp.mul F (Fp.round F ((n : ℤ) : ℚ)) (.fin p) = Fp.mul F (.fin p) (Fp.round F n) := by
    rw [show (((n : ℤ) : ℚ)) = (n : ℚ) by simp]
    cases Fp.round F (n : ℚ) with
    | nan s => rfl
    | inf s => rfl
    | fin q =>
      show Fp.round F (q * p) = Fp.round F (p * q)
      rw [mul_comm]
  have hq : Fp.le (.fin (1 / 2)) (sub F (.fin 1) (.fin p)) = true := le_round rhalf (by linarith)
  set C := btrsConst F L n (.fin p) with hC
  have hspq : Fp.le (.fin 2) C.spq = true := by
    refine hsqrt _ (ge_mul (a := 10) (b := 1 / 2) ?_ hq (by norm_num) (by norm_num) r4 (by norm_num))
    rw [hcomm]; exact hlarge
  have hb : Fp.le (.fin 6) C.b = true :=
    ge_add (a := 1) (b := 5) (le_round r1 (by norm_num)) (ge_mul (a := 5 / 2) (b := 2) (le_round r52 (by norm_num)) hspq (by norm_num) (by norm_num) r5 (by norm_num))
      r6 (by norm_num)
  have hneg : Fp.le (.fin (-(3 / 32))) (neg (Fp.round F 0.0873)) = true := by
    obtain ⟨q, hq, -, h⟩ := round_le (F := F) (z := 0.0873) r332 (by norm_num) (by norm_num)
    rw [hq]
    exact decide_eq_true (by linarith)
  have ha : Fp.le (.fin (3 / 64)) C.a = true :=
    ge_add (a := 3 / 64) (b := 0) (ge_add (a := -(3 / 32)) (b := 9 / 64) hneg
      (ge_mul (a := 3 / 128) (b := 6) (le_round r3128 (by norm_num)) hb (by norm_num) (by norm_num) r964 (by norm_num)) r364 (by norm_num))
      (ge_mul (a := 1 / 128) (b := p) (le_round r128 (by norm_num)) (decide_eq_true le_rfl) (by norm_num) hp0 r0 (by positivity)) r364 (by norm_num)
  have hc : Fp.le (.fin 10) C.c = true := by
    refine ge_add (a := 10) (b := 0) ?_ (decide_eq_true (by norm_num)) r10 (by norm_num)
    rw [hcomm]; exact hlarge
  have h2a : Fp.le (.fin (3 / 32)) (mul F (.fin 2) C.a) = true :=
    ge_mul (a := 2) (b := 3 / 64) (decide_eq_true (le_refl (2 : ℚ))) ha (by norm_num) (by norm_num) r332 (by norm_num)
  have hreal : realWords [2 ^ 64 - 1, 1] = some (1, []) := by decide +kernel
  have hu : sub F (.fin 1) (.fin (1 / 2)) = .fin (1 / 2) := by
    show Fp.round F (1 - 1 / 2) = _
    rw [show (1 - 1 / 2 : ℚ) = 1 / 2 by norm_num]
    exact same rhalf (by norm_num)
  have hus : sub F (.fin (1 / 2)) (Fp.abs (.fin (1 / 2))) = .fin 0 := by
    show Fp.round F (1 / 2 - |1 / 2|) = _
    rw [show (1 / 2 - |1 / 2| : ℚ) = 0 by norm_num]
    exact same r0 le_rfl
  have hstep : btrsStep F L n (.fin p) C [2 ^ 64 - 1, 1] = some (.error .ub, []) := by
    unfold btrsStep
    rw [hreal]
    dsimp only
    rw [hu, hus, div_zero_inf h2a (by norm_num), inf_add hb]
    rw [show mul F (.inf false) (.fin (1 / 2)) = .inf false by simp [mul], inf_add hc]
    rfl
  have hcall : Fp.binomial F log log1p (btrs F L n (fuel' + 1)) fuel n (.fin p) [2 ^ 64 - 1, 1] = some (.error .ub, []) := by
    unfold Fp.binomial
    have e1 : Fp.lt (.fin (1 / 2)) (.fin p) = false := by rw [lt_fin]; exact decide_eq_false (not_lt.2 hp1)
    have notlt : ∀ {a b : ℚ} {x : Flt}, Fp.le (.fin a) x = true → b ≤ a → Fp.lt x (.fin b) = false := by
      intro a b x h hb
      cases x with
      | nan s => rfl
      | inf s =>
        cases s
        · rfl
        · cases h
      | fin q =>
        have h : a ≤ q := of_decide_eq_true h
        rw [lt_fin]
        exact decide_eq_false (not_lt.2 (hb.trans h))
    have e2 : Fp.lt (Fp.sub F (.fin 1) (.fin p)) (.fin p) = false := notlt hq hp1
    have e3 : Fp.le (.fin 0) (.fin p) = true := decide_eq_true hp0.le
    have e4 : Fp.le (.fin p) (.fin 1) = true := decide_eq_true (by linarith)
    have e6 : decide ((n : ℤ) ≥ 0) = true := decide_eq_true (by omega)
    have e7 : Fp.lt (Fp.mul F (.fin p) (Fp.round F ((n : ℤ) : ℚ))) (.fin 10) = false := by
      rw [show (((n : ℤ) : ℚ)) = (n : ℚ) by simp]
      exact notlt hlarge le_rfl
    simp only [e1, e2, e3, e4, e6, e7, Bool.and_self, Bool.not_true, Bool.false_eq_true, if_false]
    show btrsLoop F L n false (.fin p) C (fuel' + 1) [2 ^ 64 - 1, 1] = _
    rw [btrsLoop, hstep]
  refine lt_of_lt_of_le (starts_pos [2 ^ 64 - 1, 1] (by simp)) (measureReal_mono ?_)
  intro ω hω
  have e : (List.range 2).map ω = [2 ^ 64 - 1, 1] := hω
  exact ⟨2, [], by rw [e]; exact hcall⟩

private def double : Format := ⟨53, -1074, 971, by norm_num, by norm_num⟩

/-- `binomial(100, 1/4)` in double precision, with a square root for which the one of 4 is 2. -/
example (log log1p : Flt → Flt) (L : Lib) (hsqrt : ∀ x, Fp.le (.fin 4) x = true → Fp.le (.fin 2) (L.sqrt x) = true) :
    0 < engine.real {ω | ∃ N rest, Fp.binomial double log log1p (btrs double L 100 9) 9 100 (.fin (1 / 4)) ((List.range N).map ω) =
      some (.error .ub, rest)} := by
  refine C118_defined_refuted double log log1p L 100 (1 / 4) (by decide) (by decide) (by decide) hsqrt (by norm_num) (by norm_num) ?_ 9 8
  have h100 : Rep double ((100 : ℕ) : ℚ) := ⟨100, 0, by norm_num [double], by decide, by decide, by norm_num⟩
  refine ge_mul (a := 1 / 4) (b := 100) (decide_eq_true (le_refl (1 / 4 : ℚ))) (le_round ?_ (by norm_num)) (by norm_num) (by norm_num)
    ⟨10, 0, by norm_num [double], by decide, by decide, by norm_num⟩ (by norm_num)
  simpa using h100

/-- If one iteration for `n = 100` accepts with the candidate `res`, then the loop for `p > 1/2` returns `100 - res`. -/
example (L : Lib) (p : Flt) (ws rest : List ℕ) (h : btrsStep double L 100 p (btrsConst double L 100 p) ws = some (.ok (some 30), rest)) :
    btrs double L 100 5 true p ws = some (.ok 70, rest) := by
  unfold btrs
  rw [btrsLoop, h]
  rfl

end ICPC.Props
