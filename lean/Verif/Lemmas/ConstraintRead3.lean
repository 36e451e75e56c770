import Verif.Lemmas.ConstraintRead2
import Verif.Props.Constraint

/-! # Reading with constraints: what a run that succeeds has logged, and the bounds of what is logged -/

namespace ICPC

open Spec

variable {R : Type} {cfg : StreamCfg} {ops : RealOps R} {o : BoundOps R}

theorem goes_trans {l m l' : Logger R} {es fs : List (Event R)} (h1 : Goes o l es m) (h2 : Goes o m fs l') :
    Goes o l (es ++ fs) l' := by
  induction es generalizing l with
  | nil => cases h1; exact h2
  | cons e es ih =>
    unfold Goes at h1 ⊢
    rw [Logger.run] at h1
    rw [List.cons_append, Logger.run]
    cases hs : l.step o e with
    | error x => rw [hs] at h1; cases h1
    | ok l1 =>
      rw [hs, ok_bind] at h1
      rw [ok_bind]
      exact ih h1

theorem bind_inv {α β : Type} {c : LogM R α} {f : α → LogM R β} {l l' : Logger R} {y : β} (h : c.bind f l = (.ok y, l')) :
    ∃ a m, c l = (.ok a, m) ∧ f a m = (.ok y, l') := by
  unfold LogM.bind at h
  split at h
  · next a m hc => exact ⟨a, m, hc, h⟩
  · cases h

theorem lift_inv {α : Type} {x : Out α} {l l' : Logger R} {y : α} (h : LogM.lift x l = (.ok y, l')) : x = .ok y ∧ l = l' := by
  unfold LogM.lift at h
  cases h
  exact ⟨rfl, rfl⟩

theorem log_inv {e : Event R} {l l' : Logger R} {y : Unit} (h : LogM.log o e l = (.ok y, l')) : Goes o l [e] l' := by
  unfold LogM.log at h
  unfold Goes
  rw [Logger.run]
  cases hs : l.step o e with
  | error x => rw [hs] at h; cases h
  | ok m => rw [hs] at h; cases h; rfl

theorem loggedAll_cons (t : BTok R) (n : List Char) (v : Val R) (vs : List (Val R)) :
    loggedAll t n (v :: vs) = loggedAll t n [v] ++ loggedAll t n vs := by
  simp only [loggedAll, List.filterMap_cons, List.filterMap_nil]
  cases logged t v <;> simp

theorem tok_inv {t : BTok R} {n s rest : List Char} {v : Val R} {l l' : Logger R} (h : t.run cfg ops o n s l = (.ok (v, rest), l')) :
    t.tok.run cfg ops s = .ok (v, rest) ∧ Goes o l (loggedAll t n [v]) l' := by
  unfold BTok.run at h
  obtain ⟨⟨v', rest'⟩, m, h1, h2⟩ := bind_inv h
  obtain ⟨k1, rfl⟩ := lift_inv h1
  rw [entry_logged] at h2
  cases hl : logged t v' with
  | none =>
    rw [hl] at h2
    obtain ⟨h2, rfl⟩ := lift_inv h2
    cases h2
    refine ⟨k1, ?_⟩
    simp only [loggedAll, List.filterMap_cons, List.filterMap_nil, hl, Option.map_none]
    rfl
  | some e =>
    rw [hl] at h2
    obtain ⟨u, m', h3, h4⟩ := bind_inv h2
    obtain ⟨h4, rfl⟩ := lift_inv h4
    cases h4
    refine ⟨k1, ?_⟩
    simp only [loggedAll, List.filterMap_cons, List.filterMap_nil, hl, Option.map_some]
    exact log_inv h3

theorem loop_inv {t : BTok R} {n : List Char} {sep : List Char → Out (List Char)} : ∀ (m : ℕ) {s rest : List Char} {vs : List (Val R)}
    {l l' : Logger R}, LogM.manyLoop sep (t.run cfg ops o n) m s l = (.ok (vs, rest), l') →
    Stream.manyLoop sep (t.tok.run cfg ops) m s = .ok (vs, rest) ∧ Goes o l (loggedAll t n vs) l'
  | 0, s, rest, vs, l, l', h => by
    obtain ⟨h, rfl⟩ := lift_inv h
    cases h
    exact ⟨rfl, rfl⟩
  | 1, s, rest, vs, l, l', h => by
    obtain ⟨⟨v, r⟩, m, h1, h2⟩ := bind_inv h
    obtain ⟨h2, rfl⟩ := lift_inv h2
    cases h2
    obtain ⟨h3, h4⟩ := tok_inv h1
    exact ⟨by simp only [Stream.manyLoop, h3, ok_bind], h4⟩
  | k + 2, s, rest, vs, l, l', h => by
    obtain ⟨⟨v, r⟩, m, h1, h2⟩ := bind_inv h
    obtain ⟨s', m', h3, h4⟩ := bind_inv h2
    obtain ⟨k3, rfl⟩ := lift_inv h3
    obtain ⟨⟨ws, r'⟩, m'', h5, h6⟩ := bind_inv h4
    obtain ⟨h6, rfl⟩ := lift_inv h6
    cases h6
    obtain ⟨h7, h8⟩ := tok_inv h1
    obtain ⟨h9, h10⟩ := loop_inv (k + 1) h5
    refine ⟨by simp only [Stream.manyLoop, h7, ok_bind, k3, h9], ?_⟩
    rw [loggedAll_cons]
    exact goes_trans h8 h10

theorem prog_inv (p : LProg R) : ∀ {s rest : List Char} {vs : List (List (Val R))} {l l' : Logger R},
    p.run cfg ops o s l = (.ok (vs, rest), l') → (without p).run cfg ops s = .ok (vs, rest) ∧ Goes o l (events p vs) l' := by
  induction p with
  | done r =>
    intro s rest vs l l' h
    obtain ⟨u, m, h1, h2⟩ := bind_inv h
    obtain ⟨rfl, rfl⟩ := lift_inv h1
    obtain ⟨h2, rfl⟩ := lift_inv h2
    cases h2
    exact ⟨rfl, rfl⟩
  | call c k ih =>
    intro s rest vs l l' h
    obtain ⟨⟨v, s'⟩, m, h1, h2⟩ := bind_inv h
    obtain ⟨k1, rfl⟩ := lift_inv h1
    obtain ⟨⟨ws, r⟩, m', h3, h4⟩ := bind_inv h2
    obtain ⟨h4, rfl⟩ := lift_inv h4
    cases h4
    obtain ⟨h5, h6⟩ := ih v h3
    exact ⟨by simp only [without, run_call, k1, ok_bind, h5], h6⟩
  | mention n k ih =>
    intro s rest vs l l' h
    obtain ⟨u, m, h1, h2⟩ := bind_inv h
    obtain ⟨h5, h6⟩ := ih h2
    exact ⟨h5, goes_trans (log_inv h1) h6⟩
  | read t n k ih =>
    intro s rest vs l l' h
    obtain ⟨u, m0, h0, h⟩ := bind_inv h
    obtain ⟨⟨v, s'⟩, m, h1, h2⟩ := bind_inv h
    obtain ⟨h1, h1'⟩ := tok_inv h1
    obtain ⟨⟨ws, r⟩, m', h3, h4⟩ := bind_inv h2
    obtain ⟨h4, rfl⟩ := lift_inv h4
    cases h4
    obtain ⟨h5, h6⟩ := ih [v] h3
    refine ⟨by simp only [tok_without, run_call, Call.run, h1, ok_bind, h5], ?_⟩
    exact goes_trans (log_inv h0) (goes_trans h1' h6)
  | readMany t m sep n k ih =>
    intro s rest vs l l' h
    obtain ⟨u, m0, h0, h⟩ := bind_inv h
    obtain ⟨⟨v, s'⟩, m1, h1, h2⟩ := bind_inv h
    obtain ⟨⟨ws, r⟩, m', h3, h4⟩ := bind_inv h2
    obtain ⟨h4, rfl⟩ := lift_inv h4
    cases h4
    obtain ⟨h5, h6⟩ := ih v h3
    obtain ⟨sepCall, m2, h7, h8⟩ := bind_inv h1
    obtain ⟨k7, rfl⟩ := lift_inv h7
    by_cases hm : m < 0
    · rw [if_pos hm] at h8
      obtain ⟨h8, rfl⟩ := lift_inv h8
      cases h8
    · rw [if_neg hm] at h8
      obtain ⟨h9, h10⟩ := loop_inv _ h8
      refine ⟨by simp only [many_without, run_call, Call.run, Stream.many, k7, ok_bind, hm, if_false, h9, h5], ?_⟩
      exact goes_trans (log_inv h0) (goes_trans h10 h6)

end ICPC
