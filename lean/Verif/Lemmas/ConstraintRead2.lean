import Verif.Lemmas.ConstraintRead

/-! # Reading with constraints: whole programs -/

namespace ICPC

open Spec

variable {R : Type} {cfg : StreamCfg} {ops : RealOps R}

theorem trunc_refl : ∀ p : LProg R, Trunc p p
  | .done r => .done r
  | .call _ k => .call fun v => trunc_refl (k v)
  | .mention _ k => .mention (trunc_refl k)
  | .read _ _ k => .read fun v => trunc_refl (k v)
  | .readMany _ _ _ _ k => .readMany fun v => trunc_refl (k v)

theorem run_call (c : Call R) (k : List (Val R) → Prog R) (s : List Char) :
    Prog.run cfg ops (.call c k) s = (c.run cfg ops s >>= fun x => (k x.1).run cfg ops x.2 >>= fun y => .ok (x.1 :: y.1, y.2)) := rfl

theorem run_call_ok {c : Call R} {k : List (Val R) → Prog R} {s : List Char} {vs : List (List (Val R))} {rest : List Char}
    (h : Prog.run cfg ops (.call c k) s = .ok (vs, rest)) :
    ∃ v s' ws, c.run cfg ops s = .ok (v, s') ∧ (k v).run cfg ops s' = .ok (ws, rest) ∧ vs = v :: ws := by
  rw [run_call] at h
  cases hc : c.run cfg ops s with
  | error e => rw [hc] at h; cases h
  | ok x =>
    rw [hc, ok_bind] at h
    cases hk : (k x.1).run cfg ops x.2 with
    | error e => rw [hk] at h; cases h
    | ok y =>
      rw [hk, ok_bind] at h
      cases h
      exact ⟨x.1, x.2, y.1, rfl, hk, rfl⟩

theorem run_done (s : List Char) : Prog.run cfg ops (.done (.ok ())) s = .ok ([], s) := rfl

/-- The continuation of a program for one value only. -/
noncomputable def only (v : List (Val R)) (q : LProg R) : List (Val R) → LProg R :=
  open Classical in fun w => if w = v then q else .done (.ok ())

theorem trunc_only {k : List (Val R) → LProg R} {v : List (Val R)} {q : LProg R} (h : Trunc (k v) q) (w : List (Val R)) :
    Trunc (k w) (only v q w) := by
  unfold only
  split
  · next hw => subst hw; exact h
  · exact .stop _

theorem only_self (v : List (Val R)) (q : LProg R) : only v q v = q := by
  simp [only]

/-- What `prog_does` says. -/
def Traced (cfg : StreamCfg) (ops : RealOps R) (o : BoundOps R) (p : LProg R) (s : List Char) (es : List (Event R)) : Prop :=
  Does o (p.run cfg ops o s) es ((without p).run cfg ops s) ∧
  (∀ vs rest, (without p).run cfg ops s = .ok (vs, rest) → events p vs = es) ∧
  (∃ q vs rest, Trunc p q ∧ (without q).run cfg ops s = .ok (vs, rest) ∧ events q vs = es) ∧
  ∀ q vs rest, Trunc p q → (without q).run cfg ops s = .ok (vs, rest) → events q vs <+: es

theorem does_tail {o : BoundOps R} {c : LogM R (List (List (Val R)) × List Char)} {es : List (Event R)}
    {x : Out (List (List (Val R)) × List Char)} (h : Does o c es x) (v : List (Val R)) :
    Does o (c.bind fun y => LogM.lift (.ok (v :: y.1, y.2))) es (x >>= fun y => .ok (v :: y.1, y.2)) := by
  cases x with
  | error e => exact does_bind_error h
  | ok y =>
    rw [← List.append_nil es]
    exact does_bind_ok h (does_lift o _)

theorem prog_does (o : BoundOps R) (p : LProg R) : ∀ s, ∃ es, Traced cfg ops o p s es := by
  induction p with
  | done r =>
    intro s
    cases r with
    | error e =>
      refine ⟨[], does_bind_error (does_lift o _), (fun vs rest h => by simp [without, Prog.run, error_bind] at h), ⟨_, _, _, .stop _, rfl, rfl⟩, ?_⟩
      intro q vs rest hq h
      cases hq <;> exact List.prefix_refl _
    | ok u =>
      refine ⟨[], does_bind_ok (es := []) (does_lift o _) (does_lift o _), (fun vs rest h => rfl), ⟨_, _, _, .stop _, rfl, rfl⟩, ?_⟩
      intro q vs rest hq h
      cases hq <;> exact List.prefix_refl _
  | call c k ih =>
    intro s
    cases hc : c.run cfg ops s with
    | error e =>
      refine ⟨[], ?_, ?_, ⟨_, _, _, .stop _, rfl, rfl⟩, ?_⟩
      · simp only [LProg.run, without, run_call, hc, error_bind]
        exact does_bind_error (does_lift o _)
      · intro vs rest h
        simp only [without, run_call, hc, error_bind] at h
        cases h
      · intro q vs rest hq h
        cases hq with
        | stop => exact List.prefix_refl _
        | call hk =>
          obtain ⟨v, s', ws, h1, h2, rfl⟩ := run_call_ok h
          rw [hc] at h1
          cases h1
    | ok x =>
      obtain ⟨v, s'⟩ := x
      obtain ⟨es, h1, h2, ⟨q, ws, rest, h3, h4, h5⟩, h6⟩ := ih v s'
      refine ⟨es, ?_, ?_, ⟨.call c (only v q), v :: ws, rest, .call (trunc_only h3), ?_, ?_⟩, ?_⟩
      · simp only [LProg.run, without, run_call, hc, ok_bind]
        exact does_bind_ok (es := []) (does_lift o _) (does_tail h1 v)
      · intro vs rest h
        obtain ⟨v', s'', ws', h7, h8, rfl⟩ := run_call_ok h
        rw [hc] at h7
        cases h7
        exact h2 _ _ h8
      · simp only [without, run_call, hc, ok_bind, only_self, h4]
      · simp only [events, only_self, h5]
      · intro q' vs rest' hq h
        cases hq with
        | stop => exact List.nil_prefix
        | call hk =>
          obtain ⟨v', s'', ws', h7, h8, rfl⟩ := run_call_ok h
          rw [hc] at h7
          cases h7
          exact show _ from (by simp only [events]; exact h6 _ _ _ (hk v) h8)
  | mention n k ih =>
    intro s
    obtain ⟨es, h1, h2, ⟨q, ws, rest, h3, h4, h5⟩, h6⟩ := ih s
    refine ⟨⟨n, none⟩ :: es, ?_, ?_, ⟨.mention n q, ws, rest, .mention h3, h4, by simp only [events, h5]⟩, ?_⟩
    · exact does_bind_ok (es := [⟨n, none⟩]) (does_log o _) h1
    · intro vs rest h
      simp only [events, h2 vs rest h]
    · intro q' vs rest' hq h
      cases hq with
      | stop => exact List.nil_prefix
      | mention hk => exact (List.prefix_cons_inj _).2 (h6 _ _ _ hk h)
  | read t n k ih =>
    intro s
    cases hc : t.tok.run cfg ops s with
    | error e =>
      have hcall : Call.run cfg ops (.tok t.tok) s = .error e := by simp only [Call.run, hc, error_bind]
      refine ⟨[⟨n, none⟩], ?_, ?_, ⟨_, _, _, .name t n k, rfl, rfl⟩, ?_⟩
      · simp only [LProg.run, tok_without, run_call, hcall, error_bind]
        rw [← List.append_nil [_]]
        exact does_bind_ok (does_log o _) (does_bind_error ((tok_does o t n s).2 e hc))
      · intro vs rest h
        simp only [tok_without, run_call, hcall, error_bind] at h
        cases h
      · intro q vs rest hq h
        cases hq with
        | stop => exact List.nil_prefix
        | name => exact List.prefix_refl _
        | read hk =>
          rw [tok_without] at h
          obtain ⟨v, s', ws, h1, h2, rfl⟩ := run_call_ok h
          rw [hcall] at h1
          cases h1
    | ok x =>
      obtain ⟨v, s'⟩ := x
      have hcall : Call.run cfg ops (.tok t.tok) s = .ok ([v], s') := by simp only [Call.run, hc, ok_bind]
      obtain ⟨es, h1, h2, ⟨q, ws, rest, h3, h4, h5⟩, h6⟩ := ih [v] s'
      refine ⟨⟨n, none⟩ :: (loggedAll t n [v] ++ es), ?_, ?_, ⟨.read t n (only [v] q), [v] :: ws, rest,
        .read (trunc_only h3), ?_, ?_⟩, ?_⟩
      · simp only [LProg.run, tok_without, run_call, hcall, ok_bind]
        exact does_bind_ok (es := [⟨n, none⟩]) (does_log o _)
          (does_bind_ok ((tok_does o t n s).1 v s' hc) (does_tail h1 [v]))
      · intro vs rest h
        rw [tok_without] at h
        obtain ⟨v', s'', ws', h7, h8, rfl⟩ := run_call_ok h
        rw [hcall] at h7
        cases h7
        simp only [events, h2 _ _ h8]
      · simp only [tok_without, run_call, hcall, ok_bind, only_self, h4]
      · simp only [events, only_self, h5]
      · intro q' vs rest' hq h
        cases hq with
        | stop => exact List.nil_prefix
        | name => exact (List.prefix_cons_inj _).2 List.nil_prefix
        | read hk =>
          rw [tok_without] at h
          obtain ⟨v', s'', ws', h7, h8, rfl⟩ := run_call_ok h
          rw [hcall] at h7
          cases h7
          exact (List.prefix_cons_inj _).2 ((List.prefix_append_right_inj _).2 (h6 _ _ _ (hk [v]) h8))
  | readMany t m sep n k ih =>
    intro s
    cases hsep : Stream.checkSeparator cfg sep with
    | error e =>
      have hcall : ∀ m, Call.run cfg ops (.many t.tok m sep) s = .error e := fun m => by
        simp only [Call.run, Stream.many, hsep, error_bind]
      refine ⟨[⟨n, none⟩], ?_, ?_, ⟨_, _, _, .nameMany t m sep n k, rfl, rfl⟩, ?_⟩
      · simp only [LProg.run, many_without, run_call, hcall, error_bind]
        rw [← List.append_nil [_]]
        refine does_bind_ok (does_log o _) (does_bind_error ?_)
        unfold BTok.many
        exact does_bind_error (does_lift_eq o hsep)
      · intro vs rest h
        simp only [many_without, run_call, hcall, error_bind] at h
        cases h
      · intro q vs rest hq h
        cases hq with
        | stop => exact List.nil_prefix
        | nameMany => exact List.prefix_refl _
        | readMany hk =>
          rw [many_without] at h
          obtain ⟨v, s', ws, h1, h2, rfl⟩ := run_call_ok h
          rw [hcall] at h1
          cases h1
        | part =>
          rw [many_without] at h
          obtain ⟨v, s', ws, h1, h2, rfl⟩ := run_call_ok h
          rw [hcall] at h1
          cases h1
    | ok sepCall =>
    by_cases hm : m < 0
    · have hcall : Call.run cfg ops (.many t.tok m sep) s = .error .throw := by
        simp only [Call.run, Stream.many, hsep, ok_bind, hm, if_true]
      refine ⟨[⟨n, none⟩], ?_, ?_, ⟨_, _, _, .nameMany t m sep n k, rfl, rfl⟩, ?_⟩
      · simp only [LProg.run, many_without, run_call, hcall, error_bind]
        rw [← List.append_nil [_]]
        refine does_bind_ok (does_log o _) (does_bind_error ?_)
        unfold BTok.many
        refine does_bind_ok (es := []) (does_lift_eq o hsep) ?_
        rw [if_pos hm]
        exact does_lift o _
      · intro vs rest h
        simp only [many_without, run_call, hcall, error_bind] at h
        cases h
      · intro q vs rest hq h
        cases hq with
        | stop => exact List.nil_prefix
        | nameMany => exact List.prefix_refl _
        | readMany hk =>
          rw [many_without] at h
          obtain ⟨v, s', ws, h1, h2, rfl⟩ := run_call_ok h
          rw [hcall] at h1
          cases h1
        | part h0 h1 => omega
    · have hcall : ∀ m : Int, 0 ≤ m → Call.run cfg ops (.many t.tok m sep) s =
          Stream.manyLoop sepCall (t.tok.run cfg ops) m.toNat s := fun m hm => by
        simp only [Call.run, Stream.many, hsep, ok_bind, not_lt.2 hm, if_false]
      have hmany : t.many cfg ops o m sep n s = (LogM.lift (Stream.checkSeparator cfg sep)).bind fun sep =>
          LogM.manyLoop sep (t.run cfg ops o n) m.toNat s := by
        simp only [BTok.many, hm, if_false]
      obtain ⟨vs, g1, g2, ⟨m1, rest1, hm1, g3⟩, g4⟩ := loop_does (cfg := cfg) (ops := ops) o t n sepCall m.toNat s
      have g1' : Does o (t.many cfg ops o m sep n s) (loggedAll t n vs)
          (Stream.manyLoop sepCall (t.tok.run cfg ops) m.toNat s) := by
        rw [hmany]
        exact does_bind_ok (es := []) (does_lift_eq o hsep) g1
      have hpref : ∀ m' vs' rest', 0 ≤ m' → m' ≤ m → Call.run cfg ops (.many t.tok m' sep) s = .ok (vs', rest') →
          loggedAll t n vs' <+: loggedAll t n vs := by
        intro m' vs' rest' h0 hle h
        rw [hcall m' h0] at h
        obtain ⟨ws, rfl⟩ := g4 m'.toNat vs' rest' (by omega) h
        exact ⟨loggedAll t n ws, by simp [loggedAll, List.filterMap_append]⟩
      cases hl : Stream.manyLoop sepCall (t.tok.run cfg ops) m.toNat s with
      | error e =>
        refine ⟨⟨n, none⟩ :: loggedAll t n vs, ?_, ?_, ⟨_, [vs], rest1, .part (t := t) (m := m) (m' := m1) (sep := sep) (n := n) (k := k)
          (by omega) (by omega), ?_, ?_⟩, ?_⟩
        · simp only [LProg.run, many_without, run_call, hcall m (by omega), hl, error_bind]
          rw [hl] at g1'
          exact does_bind_ok (es := [⟨n, none⟩]) (does_log o _) (does_bind_error g1')
        · intro vs rest h
          simp only [many_without, run_call, hcall m (by omega), hl, error_bind] at h
          cases h
        · simp only [many_without, run_call, hcall m1 (by omega), Int.toNat_natCast, g3, ok_bind]
          rfl
        · simp [events]
        · intro q vs' rest hq h
          cases hq with
          | stop => exact List.nil_prefix
          | nameMany => exact (List.prefix_cons_inj _).2 List.nil_prefix
          | readMany hk =>
            rw [many_without] at h
            obtain ⟨v, s', ws, h1, h2, rfl⟩ := run_call_ok h
            rw [hcall m (by omega), hl] at h1
            cases h1
          | part h0 hle =>
            rw [many_without] at h
            obtain ⟨v, s', ws, h1, h2, rfl⟩ := run_call_ok h
            simp only [events, List.append_nil]
            exact (List.prefix_cons_inj _).2 (hpref _ _ _ h0 hle h1)
      | ok x =>
        obtain ⟨v, s'⟩ := x
        obtain rfl := g2 v s' hl
        obtain ⟨es, h1, h2, ⟨q, ws, rest, h3, h4, h5⟩, h6⟩ := ih v s'
        refine ⟨⟨n, none⟩ :: (loggedAll t n v ++ es), ?_, ?_, ⟨.readMany t m sep n (only v q), v :: ws, rest,
          .readMany (trunc_only h3), ?_, ?_⟩, ?_⟩
        · simp only [LProg.run, many_without, run_call, hcall m (by omega), hl, ok_bind]
          rw [hl] at g1'
          exact does_bind_ok (es := [⟨n, none⟩]) (does_log o _) (does_bind_ok g1' (does_tail h1 v))
        · intro vs rest h
          rw [many_without] at h
          obtain ⟨v', s'', ws', h7, h8, rfl⟩ := run_call_ok h
          rw [hcall m (by omega), hl] at h7
          cases h7
          simp only [events, h2 _ _ h8]
        · simp only [many_without, run_call, hcall m (by omega), hl, ok_bind, only_self, h4]
        · simp only [events, only_self, h5]
        · intro q' vs rest' hq h
          cases hq with
          | stop => exact List.nil_prefix
          | nameMany => exact (List.prefix_cons_inj _).2 List.nil_prefix
          | readMany hk =>
            rw [many_without] at h
            obtain ⟨v', s'', ws', h7, h8, rfl⟩ := run_call_ok h
            rw [hcall m (by omega), hl] at h7
            cases h7
            exact (List.prefix_cons_inj _).2 ((List.prefix_append_right_inj _).2 (h6 _ _ _ (hk v) h8))
          | part h0 hle =>
            rw [many_without] at h
            obtain ⟨v', s'', ws', h7, h8, rfl⟩ := run_call_ok h
            simp only [events, List.append_nil]
            exact (List.prefix_cons_inj _).2 ((hpref _ _ _ h0 hle h7).trans (List.prefix_append _ _))

end ICPC
