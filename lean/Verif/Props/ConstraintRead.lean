import Verif.Lemmas.ConstraintRead3
import Verif.Props.RealText

/-! # C94: reading with constraints -/

namespace ICPC.Props

open Spec

variable {R : Type}

/-- **C94.** With the constraints a validator does the same as without: it gets the same values, consumes the same input
and ends with the same verdict.  The file with the constraints describes exactly the values that it got, each once, in
order, with the bounds of the call and under the name given there — for a list the elements in front of the first one that
is rejected, if the validator ends with a verdict: the history is that of the longest part `q` of the program that succeeds,
and the whole program if it succeeds. -/
theorem C94_reads [LinearOrder R] (cfg : StreamCfg) (ops : RealOps R) (o : BoundOps R) (hits : R → R → Prop) (g : GoodOps o hits)
    (p : LProg R) (s : List Char) (hm : NoMisuse cfg ops p s) :
    (p.run cfg ops o s {}).1 = (without p).run cfg ops s ∧
    ∃ q vs rest, Trunc p q ∧ (without q).run cfg ops s = .ok (vs, rest) ∧
      (∀ q' vs' rest', Trunc p q' → (without q').run cfg ops s = .ok (vs', rest') → events q' vs' <+: events q vs) ∧
      (∀ vs' rest', (without p).run cfg ops s = .ok (vs', rest') → events q vs = events p vs') ∧
      (((∃ x, (without p).run cfg ops s = .ok x) ∨ ∃ c, (without p).run cfg ops s = .error (.exit c)) →
        ∃ lines, constraintsFile o (p.run cfg ops o s {}) = some lines ∧ LinesFor hits o.print (events q vs) lines) := by
  obtain ⟨es, h1, h2, ⟨q, vs, rest, h3, h4, rfl⟩, h6⟩ := prog_does (cfg := cfg) (ops := ops) o p s
  obtain ⟨l, hl, hlines⟩ := C38_log o hits g _ (hm q vs rest h3 h4)
  have hr := h1 {} l hl
  refine ⟨by rw [hr], q, vs, rest, h3, h4, h6, fun vs' rest' h => (h2 vs' rest' h).symm, ?_⟩
  intro h
  refine ⟨l.lines o, ?_, hlines⟩
  rw [hr]
  rcases h with ⟨x, hx⟩ | ⟨c, hc⟩
  · rw [hx]; rfl
  · rw [hc]; rfl

/-- **C94**, misuse: a validator that misuses its constraints (a name that is no token, a type that changes, an upper bound
that cannot be decremented) never accepts, and one that accepts would accept without constraints. -/
theorem C94_misuse [LinearOrder R] (cfg : StreamCfg) (ops : RealOps R) (o : BoundOps R) (hits : R → R → Prop) (g : GoodOps o hits)
    (p : LProg R) (s : List Char) (vs : List (List (Val R))) (rest : List Char)
    (h : (p.run cfg ops o s {}).1 = .ok (vs, rest)) :
    (without p).run cfg ops s = .ok (vs, rest) ∧ Proper (events p vs) := by
  obtain ⟨h1, h2⟩ := prog_inv p (show p.run cfg ops o s {} = (.ok (vs, rest), (p.run cfg ops o s {}).2) from Prod.ext h rfl)
  refine ⟨h1, ?_⟩
  by_contra hp
  obtain ⟨e, he⟩ := C38_misuse o hits g _ hp
  unfold Goes at h2
  rw [he] at h2
  cases h2

theorem wrap_ok {α : Type} {f : α → Val R} {x : Out (α × List Char)} {v : Val R} {rest : List Char}
    (h : wrap f x = .ok (v, rest)) : ∃ a, x = .ok (a, rest) ∧ v = f a := by
  unfold wrap at h
  cases x with
  | error e => cases h
  | ok y => cases h; exact ⟨y.1, rfl, rfl⟩

theorem stringBounded_len {cfg : StreamCfg} {l u : Int} {s t rest : List Char} (h : Stream.stringBounded cfg l u s = .ok (t, rest)) :
    l ≤ t.length ∧ (t.length : Int) < u := by
  unfold Stream.stringBounded at h
  cases hs : Stream.string cfg s with
  | error e => rw [hs] at h; cases h
  | ok x =>
    obtain ⟨t', r'⟩ := x
    rw [hs, ok_bind] at h
    simp only at h
    split at h
    · cases h
    · next hb => cases h; omega

theorem stringReBounded_len {cfg : StreamCfg} {p : Re} {l u : Int} {s t rest : List Char}
    (h : Stream.stringReBounded cfg p l u s = .ok (t, rest)) : l ≤ t.length ∧ (t.length : Int) < u := by
  unfold Stream.stringReBounded at h
  cases hs : Stream.stringBounded cfg l u s with
  | error e => rw [hs] at h; cases h
  | ok x =>
    obtain ⟨t', r'⟩ := x
    have hb := stringBounded_len hs
    rw [hs, ok_bind] at h
    simp only at h
    split at h
    · cases h
    · cases h; exact hb

theorem integerBounded_in {cfg : StreamCfg} {l u v : Int} {s rest : List Char}
    (h : Stream.integerBounded cfg l u s = .ok (v, rest)) : l ≤ v ∧ v < u := by
  unfold Stream.integerBounded at h
  cases hs : Stream.integer cfg s with
  | error e => rw [hs] at h; cases h
  | ok x =>
    obtain ⟨t', r'⟩ := x
    rw [hs, ok_bind] at h
    simp only at h
    split at h
    · cases h
    · next hb => cases h; omega

theorem realStrict_in {cfg : StreamCfg} {ops : RealOps R} {l u v : R} {mi ma : Int} {s rest : List Char}
    (h : Stream.realStrict cfg ops l u mi ma s = .ok (v, rest)) : ops.le l v = true ∧ ops.lt v u = true := by
  unfold Stream.realStrict at h
  cases hs : Stream.stringRe cfg STRICT_REAL_REGEX s with
  | error e => rw [hs] at h; cases h
  | ok x =>
    obtain ⟨t, r⟩ := x
    rw [hs, ok_bind] at h
    simp only at h
    split at h
    · cases h
    · cases hp : Stream.parseToken cfg ops.parse t r with
      | error e => rw [hp] at h; cases h
      | ok y =>
        rw [hp, ok_bind] at h
        split at h
        · cases h
        · next hb =>
          cases h
          simp only [Bool.or_eq_true, Bool.not_eq_true', not_or, Bool.not_eq_false] at hb
          exact ⟨hb.1.2, hb.2⟩

/-- The entry lies within its bounds. -/
def Within (ops : RealOps R) : Entry R → Prop
  | .int lower upper value => lower ≤ value ∧ value < upper
  | .container _ lower upper size => lower ≤ size ∧ size < upper
  | .real lower upper value => ops.le lower value = true ∧ ops.lt value upper = true

/-- Not `real(lower, upper, constraint)`, which uses the tolerances. -/
def NoTolerance : BTok R → Prop
  | .real _ _ => False
  | _ => True

theorem tok_within {cfg : StreamCfg} {ops : RealOps R} {t : BTok R} {s rest : List Char} {v : Val R} {x : Entry R}
    (h : t.tok.run cfg ops s = .ok (v, rest)) (hx : logged t v = some x) (hr : NoTolerance t) : Within ops x := by
  cases t with
  | string l u =>
    obtain ⟨a, ha, rfl⟩ := wrap_ok h
    cases hx
    exact stringBounded_len ha
  | stringRe p l u =>
    obtain ⟨a, ha, rfl⟩ := wrap_ok h
    cases hx
    exact stringReBounded_len ha
  | integer l u =>
    obtain ⟨a, ha, rfl⟩ := wrap_ok h
    cases hx
    exact integerBounded_in ha
  | real l u => exact hr.elim
  | realStrict l u mi ma =>
    obtain ⟨a, ha, rfl⟩ := wrap_ok h
    cases hx
    exact realStrict_in ha

/-- The program calls the function at some point (for some values read before). -/
inductive Uses : LProg R → BTok R → Prop
  | read (t n k) : Uses (.read t n k) t
  | readMany (t m sep n k) : Uses (.readMany t m sep n k) t
  | afterCall {c k v t} : Uses (k v) t → Uses (.call c k) t
  | afterMention {n k t} : Uses k t → Uses (.mention n k) t
  | afterRead {t' n k v t} : Uses (k v) t → Uses (.read t' n k) t
  | afterMany {t' m sep n k v t} : Uses (k v) t → Uses (.readMany t' m sep n k) t

theorem loop_from {sep : List Char → Out (List Char)} {one : List Char → Out (Val R × List Char)} : ∀ (m : ℕ) {s rest : List Char}
    {vs : List (Val R)}, Stream.manyLoop sep one m s = .ok (vs, rest) → ∀ v ∈ vs, ∃ s' rest', one s' = .ok (v, rest')
  | 0, s, rest, vs, h => by
    simp only [Stream.manyLoop, Except.ok.injEq, Prod.mk.injEq] at h
    simp [← h.1]
  | 1, s, rest, vs, h => by
    cases ho : one s with
    | error e => simp [Stream.manyLoop, ho, error_bind] at h
    | ok x =>
      simp only [Stream.manyLoop, ho, ok_bind, Except.ok.injEq, Prod.mk.injEq] at h
      intro v hv
      rw [← h.1, List.mem_singleton] at hv
      exact ⟨s, x.2, by rw [hv]; exact ho⟩
  | m + 2, s, rest, vs, h => by
    cases ho : one s with
    | error e => simp [Stream.manyLoop, ho, error_bind] at h
    | ok x =>
      cases hs : sep x.2 with
      | error e => simp [Stream.manyLoop, ho, ok_bind, hs, error_bind] at h
      | ok s' =>
        cases hl : Stream.manyLoop sep one (m + 1) s' with
        | error e => simp [Stream.manyLoop, ho, ok_bind, hs, hl, error_bind] at h
        | ok y =>
          simp only [Stream.manyLoop, ho, ok_bind, hs, hl, Except.ok.injEq, Prod.mk.injEq] at h
          intro v hv
          rw [← h.1, List.mem_cons] at hv
          rcases hv with rfl | hv
          · exact ⟨s, x.2, ho⟩
          · exact loop_from (m + 1) hl v hv

theorem mem_loggedAll {t : BTok R} {n : List Char} {vs : List (Val R)} {e : Event R} (h : e ∈ loggedAll t n vs) :
    ∃ v ∈ vs, ∃ x, logged t v = some x ∧ e = ⟨n, some x⟩ := by
  obtain ⟨v, hv, h⟩ := List.mem_filterMap.1 h
  obtain ⟨x, hx, rfl⟩ := Option.map_eq_some_iff.1 h
  exact ⟨v, hv, x, hx, rfl⟩

/-- Every entry belongs to a value that was accepted by a function of the program. -/
theorem events_from {cfg : StreamCfg} {ops : RealOps R} (p : LProg R) : ∀ {s rest : List Char} {vs : List (List (Val R))},
    (without p).run cfg ops s = .ok (vs, rest) → ∀ e ∈ events p vs, ∀ x, e.entry = some x →
    ∃ t v s' rest', Uses p t ∧ t.tok.run cfg ops s' = .ok (v, rest') ∧ logged t v = some x := by
  induction p with
  | done r => intro s rest vs h e he; cases he
  | call c k ih =>
    intro s rest vs h e he x hx
    obtain ⟨v, s', ws, h1, h2, rfl⟩ := run_call_ok h
    obtain ⟨t, v', s2, r2, g1, g2⟩ := ih v h2 e he x hx
    exact ⟨t, v', s2, r2, .afterCall g1, g2⟩
  | mention n k ih =>
    intro s rest vs h e he x hx
    rw [events, List.mem_cons] at he
    rcases he with rfl | he
    · cases hx
    · obtain ⟨t, v', s2, r2, g1, g2⟩ := ih h e he x hx
      exact ⟨t, v', s2, r2, .afterMention g1, g2⟩
  | read t n k ih =>
    intro s rest vs h e he x hx
    rw [tok_without] at h
    obtain ⟨v, s', ws, h1, h2, rfl⟩ := run_call_ok h
    rw [events, List.mem_cons, List.mem_append] at he
    rcases he with rfl | he | he
    · cases hx
    · obtain ⟨w, hw, x', hx', rfl⟩ := mem_loggedAll he
      cases hx
      cases ht : t.tok.run cfg ops s with
      | error e => simp [Call.run, ht, error_bind] at h1
      | ok y =>
        simp only [Call.run, ht, ok_bind, Except.ok.injEq, Prod.mk.injEq] at h1
        rw [← h1.1, List.mem_singleton] at hw
        exact ⟨t, w, s, y.2, .read t n k, by rw [hw]; exact ht, hx'⟩
    · obtain ⟨t, v', s2, r2, g1, g2⟩ := ih v h2 e he x hx
      exact ⟨t, v', s2, r2, .afterRead g1, g2⟩
  | readMany t m sep n k ih =>
    intro s rest vs h e he x hx
    rw [many_without] at h
    obtain ⟨v, s', ws, h1, h2, rfl⟩ := run_call_ok h
    rw [events, List.mem_cons, List.mem_append] at he
    rcases he with rfl | he | he
    · cases hx
    · obtain ⟨w, hw, x', hx', rfl⟩ := mem_loggedAll he
      cases hx
      simp only [Call.run, Stream.many] at h1
      cases hsep : Stream.checkSeparator cfg sep with
      | error e => simp [hsep, error_bind] at h1
      | ok sepCall =>
        rw [hsep, ok_bind] at h1
        split at h1
        · cases h1
        · obtain ⟨s2, r2, h3⟩ := loop_from _ h1 w hw
          exact ⟨t, w, s2, r2, .readMany t m sep n k, h3, hx'⟩
    · obtain ⟨t, v', s2, r2, g1, g2⟩ := ih v h2 e he x hx
      exact ⟨t, v', s2, r2, .afterMany g1, g2⟩

/-- **C94**, bounds: every integer, every length and every real number read by `realStrict` lies within the bounds that are
logged with it (a value that is out of range is never logged), so the smallest and largest value of such a line lie
within its smallest lower and its largest upper bound. -/
theorem C94_bounds (cfg : StreamCfg) (ops : RealOps R) (p : LProg R) (s rest : List Char) (vs : List (List (Val R)))
    (h : (without p).run cfg ops s = .ok (vs, rest)) (e : Event R) (he : e ∈ events p vs) (x : Entry R) (hx : e.entry = some x) :
    (∀ lower upper value, intEntry x = some (lower, upper, value) → lower ≤ value ∧ value ≤ upper) ∧
    ((∀ l u, ¬ Uses p (.real l u)) → ∀ lower upper value, realEntry x = some (lower, upper, value) →
      ops.le lower value = true ∧ ops.lt value upper = true) := by
  obtain ⟨t, v, s', rest', h1, h2, h3⟩ := events_from p h e he x hx
  constructor
  · intro lower upper value hi
    have hn : NoTolerance t := by
      cases t with
      | real l u => cases v <;> cases h3; cases hi
      | _ => trivial
    have hw := tok_within h2 h3 hn
    cases x with
    | real l u w => cases hi
    | int l u w => cases hi; exact ⟨hw.1, by have := hw.2; omega⟩
    | container c l u w => cases hi; exact ⟨hw.1, by have := hw.2; omega⟩
  · intro hs lower upper value hi
    have hn : NoTolerance t := by
      cases t with
      | real l u => exact hs l u h1
      | _ => trivial
    have hw := tok_within h2 h3 hn
    cases x with
    | real l u w => cases hi; exact hw
    | int l u w => cases hi
    | container c l u w => cases hi

/-- The operations of `Bounds<Real>` (src/validate.h 2130-2146) with the format flags of `write` (src/validate.h 2232-2234). -/
def fltBoundOps (F : Fp.Format) : BoundOps Fp.Flt where
  hits x y := match Fp.floatEqual F x y (Fp.DEFAULT_EPS F) (Fp.DEFAULT_EPS F) with
    | .ok b => b
    | .error _ => false
  lt := Fp.lt
  print := Fp.printReal

/-- A program that reads a real number with a constraint. -/
def readReal : LProg Fp.Flt := .read (.real (.fin 0) (.fin 1000000)) "x".toList fun _ => .call .newline fun _ => .call .eof fun _ => .done (.ok ())

/-- **C94**, refuted for `real(lower, upper, constraint)`: the tolerance lets a number above the upper bound pass, and the
line in the file then has a largest value that exceeds the largest upper bound. -/
theorem C94_real_bounds_refuted :
    constraintsFile (fltBoundOps x87) (readReal.run strictCfg (Fp.realOps x87 (Fp.DEFAULT_EPS x87) (Fp.DEFAULT_EPS x87)) (fltBoundOps x87)
      "1000000.5\n".toList {}) = some ["LocationNotSupported:x x 0 1 1000000.500000 1000000.500000 0.000000 1000000.000000".toList] := by
  decide +kernel

/-- A validator that reads a number and a list with constraints. -/
def demoReads : LProg Unit :=
  .read (.integer 1 11) "n".toList fun v => .call .newline fun _ =>
    match v with
    | [.int n] => .readMany (.integer 0 100) n ' ' "a".toList fun _ => .call .newline fun _ =>
        .read (.string 1 6) "s".toList fun _ => .call .newline fun _ => .call .eof fun _ => .done (.ok ())
    | _ => .done (.ok ())

/-- Its verdict and the file. -/
def demoRun (s : String) : Option Nat × Option (List String) :=
  let r := demoReads.run strictCfg ⟨fun _ => none, fun _ _ => false, fun _ => false, fun _ _ => false, fun _ _ => false⟩ unitOps s.toList {}
  (match r.1 with
    | .error (.exit c) => some c
    | _ => none, (constraintsFile unitOps r).map fun ls => ls.map String.ofList)

example : demoRun "3\n5 0 7\nabc\n" = (none, some ["LocationNotSupported:n n 0 0 3 3 1 10",
    "LocationNotSupported:a a 1 0 0 7 0 99", "LocationNotSupported:s s 0 0 3 3 1 5"]) := by decide +kernel

/-- The third element is rejected: the file has the first two. -/
example : demoRun "3\n5 0 100\nabc\n" = (some 43, some ["LocationNotSupported:n n 0 0 3 3 1 10",
    "LocationNotSupported:a a 1 0 0 5 0 99"]) := by decide +kernel

/-- The type under which a function logs. -/
def kindOf : BTok R → Kind
  | .string _ _ => .container 0
  | .stringRe _ _ _ => .container 0
  | .integer _ _ => .integer
  | .real _ _ => .real
  | .realStrict _ _ _ _ => .real

/-- The upper bound can be decremented. -/
def UpperFits : BTok R → Prop
  | .string _ u => -(2 ^ 63) ≤ u - 1 ∧ u - 1 < 2 ^ 63
  | .stringRe _ _ u => -(2 ^ 63) ≤ u - 1 ∧ u - 1 < 2 ^ 63
  | .integer _ u => -(2 ^ 63) ≤ u - 1 ∧ u - 1 < 2 ^ 63
  | _ => True

/-- Every name of the program is a token and is used for one type only. -/
inductive Typed (ty : List Char → Kind) : LProg R → Prop
  | done {r} : Typed ty (.done r)
  | call {c k} : (∀ v, Typed ty (k v)) → Typed ty (.call c k)
  | mention {n k} : Token n → Typed ty k → Typed ty (.mention n k)
  | read {t n k} : Token n → kindOf t = ty n → UpperFits t → (∀ v, Typed ty (k v)) → Typed ty (.read t n k)
  | readMany {t m sep n k} : Token n → kindOf t = ty n → UpperFits t → (∀ v, Typed ty (k v)) → Typed ty (.readMany t m sep n k)

theorem typed_trunc {ty : List Char → Kind} {p q : LProg R} (h : Trunc p q) : Typed ty p → Typed ty q := by
  induction h with
  | stop => intro _; exact .done
  | done => exact id
  | call _ ih => intro hT; cases hT with | call h => exact .call fun v => ih v (h v)
  | mention _ ih => intro hT; cases hT with | mention h1 h2 => exact .mention h1 (ih h2)
  | read _ ih => intro hT; cases hT with | read h1 h2 h3 h4 => exact .read h1 h2 h3 fun v => ih v (h4 v)
  | readMany _ ih => intro hT; cases hT with | readMany h1 h2 h3 h4 => exact .readMany h1 h2 h3 fun v => ih v (h4 v)
  | name => intro hT; cases hT with | read h1 h2 h3 h4 => exact .mention h1 .done
  | nameMany => intro hT; cases hT with | readMany h1 h2 h3 h4 => exact .mention h1 .done
  | part => intro hT; cases hT with | readMany h1 h2 h3 h4 => exact .readMany h1 h2 h3 fun _ => .done

theorem logged_typed {t : BTok R} {v : Val R} {x : Entry R} (h : logged t v = some x) (hu : UpperFits t) :
    kind x = kindOf t ∧ ∀ p, intEntry x = some p → -(2 ^ 63) ≤ p.2.1 ∧ p.2.1 < 2 ^ 63 := by
  cases t <;> cases v <;> cases h <;> refine ⟨rfl, fun p hp => ?_⟩ <;> cases hp <;> exact hu

theorem events_typed {ty : List Char → Kind} (q : LProg R) : Typed ty q → ∀ vs, ∀ e ∈ events q vs,
    Token e.name ∧ ∀ x, e.entry = some x → kind x = ty e.name ∧ ∀ p, intEntry x = some p → -(2 ^ 63) ≤ p.2.1 ∧ p.2.1 < 2 ^ 63 := by
  induction q with
  | done r => intro _ vs e he; cases he
  | call c k ih =>
    intro hT vs e he
    have h : ∀ v, Typed ty (k v) := by
      cases hT with | call h => exact h
    cases vs with
    | nil => cases he
    | cons v vs => exact ih v (h v) vs e he
  | mention n k ih =>
    intro hT vs e he
    obtain ⟨h1, h2⟩ : Token n ∧ Typed ty k := by
      cases hT with | mention h1 h2 => exact ⟨h1, h2⟩
    rw [events, List.mem_cons] at he
    rcases he with rfl | he
    · exact ⟨h1, fun x hx => by cases hx⟩
    · exact ih h2 vs e he
  | read t n k ih =>
    intro hT vs e he
    obtain ⟨h1, h2, h3, h4⟩ : Token n ∧ kindOf t = ty n ∧ UpperFits t ∧ ∀ v, Typed ty (k v) := by
      cases hT with | read h1 h2 h3 h4 => exact ⟨h1, h2, h3, h4⟩
    cases vs with
    | nil => cases he
    | cons v vs =>
      rw [events, List.mem_cons, List.mem_append] at he
      rcases he with rfl | he | he
      · exact ⟨h1, fun x hx => by cases hx⟩
      · obtain ⟨w, hw, x', hx', rfl⟩ := mem_loggedAll he
        refine ⟨h1, fun x hx => ?_⟩
        cases hx
        exact ⟨(logged_typed hx' h3).1.trans h2, (logged_typed hx' h3).2⟩
      · exact ih v (h4 v) vs e he
  | readMany t m sep n k ih =>
    intro hT vs e he
    obtain ⟨h1, h2, h3, h4⟩ : Token n ∧ kindOf t = ty n ∧ UpperFits t ∧ ∀ v, Typed ty (k v) := by
      cases hT with | readMany h1 h2 h3 h4 => exact ⟨h1, h2, h3, h4⟩
    cases vs with
    | nil => cases he
    | cons v vs =>
      rw [events, List.mem_cons, List.mem_append] at he
      rcases he with rfl | he | he
      · exact ⟨h1, fun x hx => by cases hx⟩
      · obtain ⟨w, hw, x', hx', rfl⟩ := mem_loggedAll he
        refine ⟨h1, fun x hx => ?_⟩
        cases hx
        exact ⟨(logged_typed hx' h3).1.trans h2, (logged_typed hx' h3).2⟩
      · exact ih v (h4 v) vs e he

/-- **C94**, use without misuse: a program that uses every name for one type only, with names that are tokens, never misuses
its constraints, whatever the input. -/
theorem C94_typed (ty : List Char → Kind) (p : LProg R) (h : Typed ty p) (cfg : StreamCfg) (ops : RealOps R) (s : List Char) :
    NoMisuse cfg ops p s := by
  intro q vs rest hq _
  have ht := events_typed q (typed_trunc hq h) vs
  refine ⟨fun e he => ⟨(ht e he).1.1, fun c hc => (ht e he).1.2 c hc⟩, fun e he x hx => ((ht e he).2 x hx).2, ?_⟩
  have hent : ∀ n, ∀ x ∈ entriesOf (events q vs) n, kind x = ty n := by
    intro n x hx
    obtain ⟨e, he, hex⟩ := List.mem_filterMap.1 hx
    by_cases hn : e.name = n
    · rw [if_pos hn] at hex
      rw [← hn]
      exact ((ht e he).2 x hex).1
    · rw [if_neg hn] at hex
      cases hex
  intro n x hx y hy
  rw [hent n x hx, hent n y hy]

example : Typed (fun n => if n = "s".toList then .container 0 else .integer) demoReads := by
  refine .read ⟨by decide, by decide⟩ (by decide) (by simp [UpperFits]) fun v => .call fun _ => ?_
  split
  · refine .readMany ⟨by decide, by decide⟩ (by decide) (by simp [UpperFits]) fun _ => .call fun _ =>
      .read ⟨by decide, by decide⟩ (by decide) (by simp [UpperFits]) fun _ => .call fun _ => .call fun _ => .done
  · exact .done

end ICPC.Props
