import Verif.Spec.ConstraintRead

/-! # Reading with constraints: the names and entries used by a run, whatever the logger does with them -/

namespace ICPC

open Spec

variable {R : Type}

theorem tok_without (t : BTok R) (n : List Char) (k : List (Val R) → LProg R) :
    without (.read t n k) = .call (.tok t.tok) fun v => without (k v) := by
  cases t <;> rfl

theorem many_without (t : BTok R) (m : Int) (sep : Char) (n : List Char) (k : List (Val R) → LProg R) :
    without (.readMany t m sep n k) = .call (.many t.tok m sep) fun v => without (k v) := by
  cases t <;> rfl

theorem entry_logged (t : BTok R) (v : Val R) : t.entry v = logged t v := by
  cases t <;> cases v <;> rfl

/-- The logger accepts the events and goes from the first state to the second. -/
def Goes (o : BoundOps R) (l : Logger R) (es : List (Event R)) (l' : Logger R) : Prop := l.run o es = .ok l'

theorem goes_append {o : BoundOps R} (es fs : List (Event R)) : ∀ {l l' : Logger R}, Goes o l (es ++ fs) l' →
    ∃ m, Goes o l es m ∧ Goes o m fs l' := by
  induction es with
  | nil => intro l l' h; exact ⟨l, rfl, h⟩
  | cons e es ih =>
    intro l l' h
    unfold Goes at h
    rw [List.cons_append, Logger.run] at h
    cases hs : l.step o e with
    | error x => rw [hs] at h; cases h
    | ok l1 =>
      rw [hs, ok_bind] at h
      obtain ⟨m, h1, h2⟩ := ih h
      exact ⟨m, by unfold Goes; rw [Logger.run, hs, ok_bind]; exact h1, h2⟩

/-- The computation does `x` with the events `es`, for all loggers that accept them. -/
def Does {α : Type} (o : BoundOps R) (c : LogM R α) (es : List (Event R)) (x : Out α) : Prop :=
  ∀ l l', Goes o l es l' → c l = (x, l')

theorem does_lift {α : Type} (o : BoundOps R) (x : Out α) : Does o (LogM.lift x) [] x := by
  intro l l' h
  cases h
  rfl

theorem does_lift_eq {α : Type} (o : BoundOps R) {x y : Out α} (h : x = y) : Does o (LogM.lift x) [] y :=
  h ▸ does_lift o x

theorem does_log (o : BoundOps R) (e : Event R) : Does o (LogM.log o e) [e] (.ok ()) := by
  intro l l' h
  unfold Goes at h
  rw [Logger.run] at h
  unfold LogM.log
  cases hs : l.step o e with
  | error x => rw [hs] at h; cases h
  | ok l1 =>
    rw [hs, ok_bind, Logger.run] at h
    cases h
    rfl

theorem does_bind_ok {α β : Type} {o : BoundOps R} {c : LogM R α} {f : α → LogM R β} {es fs : List (Event R)} {a : α} {y : Out β}
    (h1 : Does o c es (.ok a)) (h2 : Does o (f a) fs y) : Does o (c.bind f) (es ++ fs) y := by
  intro l l' h
  obtain ⟨m, h3, h4⟩ := goes_append _ _ h
  unfold LogM.bind
  rw [h1 l m h3]
  exact h2 m l' h4

theorem does_bind_error {α β : Type} {o : BoundOps R} {c : LogM R α} {f : α → LogM R β} {es : List (Event R)} {e : Stop}
    (h1 : Does o c es (.error e)) : Does o (c.bind f) es (.error e) := by
  intro l l' h
  unfold LogM.bind
  rw [h1 l l' h]

variable {cfg : StreamCfg} {ops : RealOps R}

/-- One token. -/
theorem tok_does (o : BoundOps R) (t : BTok R) (n s : List Char) :
    (∀ v rest, t.tok.run cfg ops s = .ok (v, rest) → Does o (t.run cfg ops o n s) (loggedAll t n [v]) (.ok (v, rest))) ∧
    (∀ e, t.tok.run cfg ops s = .error e → Does o (t.run cfg ops o n s) [] (.error e)) := by
  constructor
  · intro v rest h
    unfold BTok.run
    rw [h]
    have : loggedAll t n [v] = [] ++ loggedAll t n [v] := rfl
    rw [this]
    refine does_bind_ok (does_lift o _) ?_
    simp only [entry_logged, loggedAll, List.filterMap_cons, List.filterMap_nil]
    cases hl : logged t v with
    | none => exact does_lift o _
    | some e =>
      simp only [Option.map_some]
      exact does_bind_ok (fs := []) (does_log o _) (does_lift o _)
  · intro e h
    unfold BTok.run
    rw [h]
    exact does_bind_error (does_lift o _)

/-- The loop: the values that it reads before it ends or fails. -/
theorem loop_does (o : BoundOps R) (t : BTok R) (n : List Char) (sep : List Char → Out (List Char)) : ∀ (m : ℕ) (s : List Char),
    ∃ vs, Does o (LogM.manyLoop sep (t.run cfg ops o n) m s) (loggedAll t n vs) (Stream.manyLoop sep (t.tok.run cfg ops) m s) ∧
      (∀ vs' rest, Stream.manyLoop sep (t.tok.run cfg ops) m s = .ok (vs', rest) → vs' = vs) ∧
      (∃ m' rest, m' ≤ m ∧ Stream.manyLoop sep (t.tok.run cfg ops) m' s = .ok (vs, rest)) ∧
      ∀ m' vs' rest, m' ≤ m → Stream.manyLoop sep (t.tok.run cfg ops) m' s = .ok (vs', rest) → vs' <+: vs := by
  intro m
  induction m using Nat.strong_induction_on with
  | _ m ih =>
    intro s
    match m with
    | 0 =>
      refine ⟨[], does_lift o _, ?_, ⟨0, s, le_rfl, rfl⟩, ?_⟩
      · intro vs' rest h
        simp only [Stream.manyLoop, Except.ok.injEq, Prod.mk.injEq] at h
        exact h.1.symm
      · intro m' vs' rest hm h
        obtain rfl : m' = 0 := by omega
        simp only [Stream.manyLoop, Except.ok.injEq, Prod.mk.injEq] at h
        rw [← h.1]
        exact List.prefix_refl _
    | 1 =>
      cases ht : t.tok.run cfg ops s with
      | error e =>
        refine ⟨[], ?_, ?_, ⟨0, s, by omega, rfl⟩, ?_⟩
        · simp only [LogM.manyLoop, Stream.manyLoop, ht, error_bind]
          exact does_bind_error ((tok_does o t n s).2 e ht)
        · intro vs' rest h
          simp [Stream.manyLoop, ht, error_bind] at h
        · intro m' vs' rest hm h
          match m', hm with
          | 0, _ =>
            simp only [Stream.manyLoop, Except.ok.injEq, Prod.mk.injEq] at h
            rw [← h.1]
            exact List.prefix_refl _
          | 1, _ => simp [Stream.manyLoop, ht, error_bind] at h
      | ok x =>
        obtain ⟨v, rest⟩ := x
        refine ⟨[v], ?_, ?_, ⟨1, rest, le_rfl, ?_⟩, ?_⟩
        · simp only [LogM.manyLoop, Stream.manyLoop, ht, ok_bind]
          rw [← List.append_nil (loggedAll t n [v])]
          exact does_bind_ok ((tok_does o t n s).1 v rest ht) (does_lift o _)
        · intro vs' rest h
          simp only [Stream.manyLoop, ht, ok_bind, Except.ok.injEq, Prod.mk.injEq] at h
          exact h.1.symm
        · simp only [Stream.manyLoop, ht, ok_bind]
        · intro m' vs' rest hm h
          match m', hm with
          | 0, _ =>
            simp only [Stream.manyLoop, Except.ok.injEq, Prod.mk.injEq] at h
            rw [← h.1]
            exact List.nil_prefix
          | 1, _ =>
            simp only [Stream.manyLoop, ht, ok_bind, Except.ok.injEq, Prod.mk.injEq] at h
            rw [← h.1]
            exact List.prefix_refl _
    | m + 2 =>
      cases ht : t.tok.run cfg ops s with
      | error e =>
        refine ⟨[], ?_, ?_, ⟨0, s, by omega, rfl⟩, ?_⟩
        · simp only [LogM.manyLoop, Stream.manyLoop, ht, error_bind]
          exact does_bind_error ((tok_does o t n s).2 e ht)
        · intro vs' rest h
          simp [Stream.manyLoop, ht, error_bind] at h
        · intro m' vs' rest hm h
          match m', hm with
          | 0, _ =>
            simp only [Stream.manyLoop, Except.ok.injEq, Prod.mk.injEq] at h
            rw [← h.1]
            exact List.prefix_refl _
          | 1, _ => simp [Stream.manyLoop, ht, error_bind] at h
          | m' + 2, _ => simp [Stream.manyLoop, ht, error_bind] at h
      | ok x =>
        obtain ⟨v, rest⟩ := x
        cases hs : sep rest with
        | error e =>
          refine ⟨[v], ?_, ?_, ⟨1, rest, by omega, ?_⟩, ?_⟩
          · simp only [LogM.manyLoop, Stream.manyLoop, ht, ok_bind, hs, error_bind]
            rw [← List.append_nil (loggedAll t n [v])]
            exact does_bind_ok ((tok_does o t n s).1 v rest ht) (does_bind_error (does_lift_eq o hs))
          · intro vs' rest h
            simp [Stream.manyLoop, ht, ok_bind, hs, error_bind] at h
          · simp only [Stream.manyLoop, ht, ok_bind]
          · intro m' vs' rest hm h
            match m', hm with
            | 0, _ =>
              simp only [Stream.manyLoop, Except.ok.injEq, Prod.mk.injEq] at h
              rw [← h.1]
              exact List.nil_prefix
            | 1, _ =>
              simp only [Stream.manyLoop, ht, ok_bind, Except.ok.injEq, Prod.mk.injEq] at h
              rw [← h.1]
              exact List.prefix_refl _
            | m' + 2, _ => simp [Stream.manyLoop, ht, ok_bind, hs, error_bind] at h
        | ok s' =>
          obtain ⟨vs, h1, h2, ⟨m1, rest1, hm1, h3⟩, h4⟩ := ih (m + 1) (by omega) s'
          have hcons : loggedAll t n (v :: vs) = loggedAll t n [v] ++ ([] ++ (loggedAll t n vs)) := by
            simp only [loggedAll, List.filterMap_cons, List.filterMap_nil, List.nil_append]
            cases logged t v <;> simp
          by_cases hm0 : m1 = 0
          · subst hm0
            simp only [Stream.manyLoop, Except.ok.injEq, Prod.mk.injEq] at h3
            obtain ⟨rfl, rfl⟩ := h3
            refine ⟨[v], ?_, ?_, ⟨1, rest, by omega, by simp only [Stream.manyLoop, ht, ok_bind]⟩, ?_⟩
            · rw [hcons]
              simp only [LogM.manyLoop, Stream.manyLoop, ht, ok_bind, hs]
              refine does_bind_ok ((tok_does o t n s).1 v rest ht) (does_bind_ok (does_lift_eq o hs) ?_)
              cases hl : Stream.manyLoop sep (t.tok.run cfg ops) (m + 1) s' with
              | error e =>
                rw [hl] at h1
                exact does_bind_error h1
              | ok y =>
                rw [hl] at h1
                rw [← List.append_nil (loggedAll t n [])]
                exact does_bind_ok h1 (does_lift o _)
            · intro vs' rest' h
              simp only [Stream.manyLoop, ht, ok_bind, hs] at h
              cases hl : Stream.manyLoop sep (t.tok.run cfg ops) (m + 1) s' with
              | error e => rw [hl, error_bind] at h; cases h
              | ok y =>
                rw [hl, ok_bind] at h
                cases h
                rw [h2 _ _ hl]
            · intro m' vs' rest' hm h
              match m', hm with
              | 0, _ =>
                simp only [Stream.manyLoop, Except.ok.injEq, Prod.mk.injEq] at h
                rw [← h.1]
                exact List.nil_prefix
              | 1, _ =>
                simp only [Stream.manyLoop, ht, ok_bind, Except.ok.injEq, Prod.mk.injEq] at h
                rw [← h.1]
                exact List.prefix_refl _
              | m' + 2, hm =>
                simp only [Stream.manyLoop, ht, ok_bind, hs] at h
                cases hl : Stream.manyLoop sep (t.tok.run cfg ops) (m' + 1) s' with
                | error e => rw [hl, error_bind] at h; cases h
                | ok y =>
                  rw [hl, ok_bind] at h
                  cases h
                  exact (List.prefix_cons_inj v).2 (h4 (m' + 1) _ _ (by omega) hl)
          · obtain ⟨m2, rfl⟩ := Nat.exists_eq_succ_of_ne_zero hm0
            refine ⟨v :: vs, ?_, ?_, ⟨m2 + 2, rest1, by omega, ?_⟩, ?_⟩
            · rw [hcons]
              simp only [LogM.manyLoop, Stream.manyLoop, ht, ok_bind, hs]
              refine does_bind_ok ((tok_does o t n s).1 v rest ht) (does_bind_ok (does_lift_eq o hs) ?_)
              cases hl : Stream.manyLoop sep (t.tok.run cfg ops) (m + 1) s' with
              | error e =>
                rw [hl] at h1
                exact does_bind_error h1
              | ok y =>
                rw [hl] at h1
                rw [← List.append_nil (loggedAll t n vs)]
                exact does_bind_ok h1 (does_lift o _)
            · intro vs' rest' h
              simp only [Stream.manyLoop, ht, ok_bind, hs] at h
              cases hl : Stream.manyLoop sep (t.tok.run cfg ops) (m + 1) s' with
              | error e => rw [hl, error_bind] at h; cases h
              | ok y =>
                rw [hl, ok_bind] at h
                cases h
                rw [h2 _ _ hl]
            · simp only [Stream.manyLoop, ht, ok_bind, hs]
              simp only [Nat.succ_eq_add_one] at h3
              rw [h3]; rfl
            · intro m' vs' rest' hm h
              match m', hm with
              | 0, _ =>
                simp only [Stream.manyLoop, Except.ok.injEq, Prod.mk.injEq] at h
                rw [← h.1]
                exact List.nil_prefix
              | 1, _ =>
                simp only [Stream.manyLoop, ht, ok_bind, Except.ok.injEq, Prod.mk.injEq] at h
                rw [← h.1]
                exact (List.prefix_cons_inj v).2 List.nil_prefix
              | m' + 2, hm =>
                simp only [Stream.manyLoop, ht, ok_bind, hs] at h
                cases hl : Stream.manyLoop sep (t.tok.run cfg ops) (m' + 1) s' with
                | error e => rw [hl, error_bind] at h; cases h
                | ok y =>
                  rw [hl, ok_bind] at h
                  cases h
                  exact (List.prefix_cons_inj v).2 (h4 (m' + 1) _ _ (by omega) hl)

end ICPC
