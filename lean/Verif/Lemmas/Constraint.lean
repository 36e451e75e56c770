import Verif.Spec.Constraint
import Verif.Lemmas.Stream
import Mathlib.Order.MinMax
import Mathlib.Data.List.Basic
import Mathlib.Data.List.Forall2
import Mathlib.Data.List.Induction
import Mathlib.Data.List.Nodup

namespace ICPC
open Spec

theorem intGood : GoodOps intBoundOps (fun a b => a = b) where
  lt := by simp [intBoundOps]
  hits := by simp [intBoundOps]

section
variable {T : Type} [LinearOrder T] {o : BoundOps T} {hits : T → T → Prop} (g : GoodOps o hits)
include g

theorem stdMin_eq (a b : T) : stdMin o a b = min a b := by
  unfold stdMin
  by_cases h : b < a
  · rw [if_pos ((g.lt b a).2 h), min_eq_right h.le]
  · rw [if_neg (fun x => h ((g.lt b a).1 x)), min_eq_left (not_lt.1 h)]

theorem stdMax_eq (a b : T) : stdMax o a b = max a b := by
  unfold stdMax
  by_cases h : a < b
  · rw [if_pos ((g.lt a b).2 h), max_eq_right h.le]
  · rw [if_neg (fun x => h ((g.lt a b).1 x)), max_eq_left (not_lt.1 h)]

end

/-- The bounds describe a non-empty list of entries. -/
structure BoundsOK {T : Type} [LinearOrder T] (hits : T → T → Prop) (es : List (T × T × T)) (b : Bounds T) : Prop where
  hadMin : b.hadMin = true ↔ ∃ e ∈ es, hits e.2.2 e.1
  hadMax : b.hadMax = true ↔ ∃ e ∈ es, hits e.2.2 e.2.1
  min : IsLeast {v | ∃ e ∈ es, v = e.2.2} b.min
  max : IsGreatest {v | ∃ e ∈ es, v = e.2.2} b.max
  lower : IsLeast {v | ∃ e ∈ es, v = e.1} b.lower
  upper : IsGreatest {v | ∃ e ∈ es, v = e.2.1} b.upper

theorem isLeast_snoc {T α : Type} [LinearOrder T] (f : α → T) {es : List α} {m : T} (e : α)
    (h : IsLeast {v | ∃ x ∈ es, v = f x} m) : IsLeast {v | ∃ x ∈ es ++ [e], v = f x} (min m (f e)) := by
  obtain ⟨⟨x, hx, rfl⟩, h2⟩ := h
  constructor
  · rcases min_choice (f x) (f e) with h | h <;> rw [h]
    · exact ⟨x, by simp [hx], rfl⟩
    · exact ⟨e, by simp, rfl⟩
  · rintro v ⟨y, hy, rfl⟩
    rcases List.mem_append.1 hy with hy | hy
    · exact le_trans (min_le_left _ _) (h2 ⟨y, hy, rfl⟩)
    · rw [List.mem_singleton.1 hy]; exact min_le_right _ _

theorem isGreatest_snoc {T α : Type} [LinearOrder T] (f : α → T) {es : List α} {m : T} (e : α)
    (h : IsGreatest {v | ∃ x ∈ es, v = f x} m) : IsGreatest {v | ∃ x ∈ es ++ [e], v = f x} (max m (f e)) := by
  obtain ⟨⟨x, hx, rfl⟩, h2⟩ := h
  constructor
  · rcases max_choice (f x) (f e) with h | h <;> rw [h]
    · exact ⟨x, by simp [hx], rfl⟩
    · exact ⟨e, by simp, rfl⟩
  · rintro v ⟨y, hy, rfl⟩
    rcases List.mem_append.1 hy with hy | hy
    · exact le_trans (h2 ⟨y, hy, rfl⟩) (le_max_left _ _)
    · rw [List.mem_singleton.1 hy]; exact le_max_right _ _

section
variable {T : Type} [LinearOrder T] {o : BoundOps T} {hits : T → T → Prop} (g : GoodOps o hits)
include g

theorem boundsOK_update {es : List (T × T × T)} {b : Bounds T} (h : BoundsOK hits es b) (l u v : T) :
    BoundsOK hits (es ++ [(l, u, v)]) (b.update o l u v) where
  hadMin := by
    simp only [Bounds.update, Bool.or_eq_true, h.hadMin, g.hits, List.mem_append, List.mem_singleton]
    constructor
    · rintro (⟨e, he, h⟩ | h)
      · exact ⟨e, .inl he, h⟩
      · exact ⟨_, .inr rfl, h⟩
    · rintro ⟨e, he | rfl, h⟩
      · exact .inl ⟨e, he, h⟩
      · exact .inr h
  hadMax := by
    simp only [Bounds.update, Bool.or_eq_true, h.hadMax, g.hits, List.mem_append, List.mem_singleton]
    constructor
    · rintro (⟨e, he, h⟩ | h)
      · exact ⟨e, .inl he, h⟩
      · exact ⟨_, .inr rfl, h⟩
    · rintro ⟨e, he | rfl, h⟩
      · exact .inl ⟨e, he, h⟩
      · exact .inr h
  min := by simp only [Bounds.update, stdMin_eq g]; exact isLeast_snoc (fun e => e.2.2) (l, u, v) h.min
  max := by simp only [Bounds.update, stdMax_eq g]; exact isGreatest_snoc (fun e => e.2.2) (l, u, v) h.max
  lower := by simp only [Bounds.update, stdMin_eq g]; exact isLeast_snoc (fun e => e.1) (l, u, v) h.lower
  upper := by simp only [Bounds.update, stdMax_eq g]; exact isGreatest_snoc (fun e => e.2.1) (l, u, v) h.upper

theorem boundsOK_make (l u v : T) :
    BoundsOK hits [(l, u, v)] ((Bounds.make o l u v).update o l u v) := by
  have e : (Bounds.make o l u v).update o l u v = { hadMin := o.hits v l, hadMax := o.hits v u, min := v, max := v, lower := l, upper := u } := by
    simp [Bounds.make, Bounds.update, stdMin_eq g, stdMax_eq g]
  rw [e]
  constructor <;> simp [g.hits, IsLeast, IsGreatest, lowerBounds, upperBounds]

end

/-- Number of the type of an entry. -/
def typeNo {R : Type} : Entry R → Nat
  | .int _ _ _ => 0
  | .real _ _ _ => 1
  | .container t _ _ _ => t + 2

theorem typeNo_eq {R : Type} (x y : Entry R) : typeNo x = typeNo y ↔ kind x = kind y := by
  cases x <;> cases y <;> simp [typeNo, kind]

/-- The constraint describes the entries. -/
def ConstraintOK {R : Type} [LinearOrder R] (hits : R → R → Prop) (es : List (Entry R)) (c : Constraint R) : Prop :=
  (es = [] ∧ c.type = none) ∨
  (es ≠ [] ∧ (∀ x ∈ es, c.type = some (typeNo x)) ∧
    ((∃ b, c.bound = .int b ∧ c.type ≠ some 1 ∧ es.filterMap realEntry = [] ∧
        BoundsOK (fun a b => a = b) (es.filterMap intEntry) b) ∨
     (∃ b, c.bound = .real b ∧ c.type = some 1 ∧ es.filterMap intEntry = [] ∧ BoundsOK hits (es.filterMap realEntry) b)))

/-- The upper bound of an entry can be decremented. -/
def UpperOK {R : Type} (x : Entry R) : Prop := ∀ p, intEntry x = some p → I64 p.2.1

section
variable {R : Type} [LinearOrder R] {o : BoundOps R} {hits : R → R → Prop} (g : GoodOps o hits)

theorem updateInt_spec {es : List (Entry R)} {c : Constraint R} (h : ConstraintOK hits es c) (x : Entry R)
    (l u v : Int) (hx : intEntry x = some (l, u - 1, v)) (hr : realEntry x = none) (ht : typeNo x ≠ 1) :
    (I64 (u - 1) ∧ (∀ y ∈ es, typeNo y = typeNo x) →
      ∃ c', c.updateInt (typeNo x) l u v = .ok c' ∧ ConstraintOK hits (es ++ [x]) c') ∧
    (¬ (I64 (u - 1) ∧ (∀ y ∈ es, typeNo y = typeNo x)) → ∃ e, c.updateInt (typeNo x) l u v = .error e) := by
  constructor
  · rintro ⟨hu, hs⟩
    rcases h with ⟨rfl, h⟩ | ⟨hne, hty, hb⟩
    · refine ⟨_, by simp [Constraint.updateInt, chk_ok hu, h, ok_bind, judgeAssert_true]; rfl, .inr ⟨by simp, by simp, .inl ⟨_, rfl, by simpa using ht, by simp [hr], ?_⟩⟩⟩
      simp only [List.nil_append, List.filterMap_cons, hx, List.filterMap_nil]
      exact boundsOK_make intGood l (u - 1) v
    · obtain ⟨y, hy⟩ := List.exists_mem_of_ne_nil es hne
      have hc : c.type = some (typeNo x) := by rw [hty y hy, hs y hy]
      rcases hb with ⟨b, hb, h1, h2, h3⟩ | ⟨b, hb, h1, _⟩
      · refine ⟨_, by simp [Constraint.updateInt, chk_ok hu, hc, ok_bind, judgeAssert_true, hb]; rfl, .inr ⟨by simp, ?_, .inl ⟨_, rfl, by simpa [hc] using ht, by simp [hr, h2], ?_⟩⟩⟩
        · intro z hz
          rcases List.mem_append.1 hz with hz | hz
          · simpa [hc] using (hs z hz).symm
          · simp [List.mem_singleton.1 hz]
        · simp only [List.filterMap_append, List.filterMap_cons, hx, List.filterMap_nil]
          exact boundsOK_update intGood h3 l (u - 1) v
      · rw [hc] at h1; exact absurd (Option.some.inj h1) ht
  · intro hn
    by_cases hu : I64 (u - 1)
    · have hs : ¬ ∀ y ∈ es, typeNo y = typeNo x := fun h => hn ⟨hu, h⟩
      rcases h with ⟨rfl, h⟩ | ⟨hne, hty, hb⟩
      · simp at hs
      · push Not at hs
        obtain ⟨y, hy, hyx⟩ := hs
        have hc := hty y hy
        exact ⟨.throw, by simp [Constraint.updateInt, chk_ok hu, hc, ok_bind, hyx, judgeAssert_false, error_bind]⟩
    · exact ⟨.ub, by simp [Constraint.updateInt, chk, hu, error_bind]⟩

include g in
theorem updateReal_spec {es : List (Entry R)} {c : Constraint R} (h : ConstraintOK hits es c) (l u v : R) :
    ((∀ y ∈ es, typeNo y = 1) →
      ∃ c', c.updateReal o l u v = .ok c' ∧ ConstraintOK hits (es ++ [.real l u v]) c') ∧
    (¬ (∀ y ∈ es, typeNo y = 1) → ∃ e, c.updateReal o l u v = .error e) := by
  constructor
  · intro hs
    rcases h with ⟨rfl, h⟩ | ⟨hne, hty, hb⟩
    · refine ⟨_, by simp [Constraint.updateReal, h, ok_bind, judgeAssert_true]; rfl, .inr ⟨by simp, by simp [typeNo], .inr ⟨_, rfl, rfl, by simp [intEntry], ?_⟩⟩⟩
      exact boundsOK_make g l u v
    · obtain ⟨y, hy⟩ := List.exists_mem_of_ne_nil es hne
      have hc : c.type = some 1 := by rw [hty y hy, hs y hy]
      rcases hb with ⟨b, hb, h1, _⟩ | ⟨b, hb, h1, h2, h3⟩
      · exact absurd hc h1
      · refine ⟨_, by simp [Constraint.updateReal, hc, ok_bind, judgeAssert_true, hb]; rfl, .inr ⟨by simp, ?_, .inr ⟨_, rfl, by simp, by simp [intEntry, h2], ?_⟩⟩⟩
        · intro z hz
          rcases List.mem_append.1 hz with hz | hz
          · simpa [hc] using (hs z hz).symm
          · simp [List.mem_singleton.1 hz, typeNo]
        · simp only [List.filterMap_append, List.filterMap_cons, realEntry, List.filterMap_nil]
          exact boundsOK_update g h3 l u v
  · intro hs
    rcases h with ⟨rfl, h⟩ | ⟨hne, hty, hb⟩
    · simp at hs
    · push Not at hs
      obtain ⟨y, hy, hyx⟩ := hs
      have hc := hty y hy
      exact ⟨.throw, by simp [Constraint.updateReal, hc, hyx, judgeAssert_false, error_bind]⟩

include g in
theorem log_spec {es : List (Entry R)} {c : Constraint R} (h : ConstraintOK hits es c) (x : Entry R) :
    (UpperOK x ∧ (∀ y ∈ es, kind y = kind x) → ∃ c', c.log o x = .ok c' ∧ ConstraintOK hits (es ++ [x]) c') ∧
    (¬ (UpperOK x ∧ (∀ y ∈ es, kind y = kind x)) → ∃ e, c.log o x = .error e) := by
  simp only [← typeNo_eq]
  cases x with
  | int l u v =>
    have := updateInt_spec h (.int l u v) l u v rfl rfl (by simp [typeNo])
    simpa [UpperOK, intEntry, Constraint.log, typeNo] using this
  | real l u v =>
    have := updateReal_spec g h l u v
    simpa [UpperOK, intEntry, Constraint.log, typeNo] using this
  | container t l u v =>
    have := updateInt_spec h (.container t l u v) l u v rfl rfl (by simp [typeNo])
    simpa [UpperOK, intEntry, Constraint.log, typeNo] using this

end

end ICPC
