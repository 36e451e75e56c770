import Verif.Spec.Stream
import Mathlib.Tactic.Common

/-! # Matching by derivatives decides the language -/

namespace ICPC
open Spec

theorem lang_none {w : List Char} : ¬ Lang .none w := by intro h; cases h

theorem lang_eps_iff {w : List Char} : Lang .eps w ↔ w = [] := by
  constructor
  · intro h; cases h; rfl
  · rintro rfl; exact .eps

theorem lang_chr_iff {p : Char → Bool} {w : List Char} : Lang (.chr p) w ↔ ∃ c, p c = true ∧ w = [c] := by
  constructor
  · intro h; cases h with | chr h => exact ⟨_, h, rfl⟩
  · rintro ⟨c, h, rfl⟩; exact .chr h

theorem lang_alt_iff {a b : Re} {w : List Char} : Lang (.alt a b) w ↔ Lang a w ∨ Lang b w := by
  constructor
  · intro h
    cases h with
    | left h => exact .inl h
    | right h => exact .inr h
  · rintro (h | h)
    · exact .left h
    · exact .right h

theorem lang_cat_iff {a b : Re} {w : List Char} : Lang (.cat a b) w ↔ ∃ u v, w = u ++ v ∧ Lang a u ∧ Lang b v := by
  constructor
  · intro h; cases h with | cat h1 h2 => exact ⟨_, _, rfl, h1, h2⟩
  · rintro ⟨u, v, rfl, h1, h2⟩; exact .cat h1 h2

theorem nullable_iff (r : Re) : r.nullable = true ↔ Lang r [] := by
  induction r with
  | chr p => simp [Re.nullable, lang_chr_iff]
  | eps => simp [Re.nullable, lang_eps_iff]
  | none => simp [Re.nullable, lang_none]
  | alt a b iha ihb => simp [Re.nullable, lang_alt_iff, iha, ihb]
  | cat a b iha ihb =>
    simp only [Re.nullable, Bool.and_eq_true, iha, ihb, lang_cat_iff]
    constructor
    · rintro ⟨h1, h2⟩; exact ⟨[], [], rfl, h1, h2⟩
    · rintro ⟨u, v, h, h1, h2⟩
      have := List.append_eq_nil_iff.1 h.symm
      rw [this.1] at h1; rw [this.2] at h2
      exact ⟨h1, h2⟩
  | star a _ => simp [Re.nullable, Lang.starNil]

theorem lang_star_cons {a : Re} {c : Char} {w : List Char} (h : Lang (.star a) (c :: w)) :
    ∃ u v, w = u ++ v ∧ Lang a (c :: u) ∧ Lang (.star a) v := by
  generalize hr : Re.star a = r at h
  generalize hx : c :: w = x at h
  induction h with
  | chr _ => cases hr
  | eps => cases hr
  | left _ _ => cases hr
  | right _ _ => cases hr
  | cat _ _ _ _ => cases hr
  | starNil => cases hx
  | @starCons a' v' w' h1 h2 _ ih2 =>
    cases hr
    cases v' with
    | nil => exact ih2 rfl hx
    | cons d v' =>
      simp only [List.cons_append, List.cons.injEq] at hx
      obtain ⟨rfl, rfl⟩ := hx
      exact ⟨v', w', rfl, h1, h2⟩

theorem deriv_iff (c : Char) (r : Re) (w : List Char) : Lang (r.deriv c) w ↔ Lang r (c :: w) := by
  induction r generalizing w with
  | chr p =>
    simp only [Re.deriv]
    by_cases h : p c = true
    · simp [h, lang_eps_iff, lang_chr_iff]
    · simp [h, lang_none, lang_chr_iff]
  | eps => simp [Re.deriv, lang_none, lang_eps_iff]
  | none => simp [Re.deriv, lang_none]
  | alt a b iha ihb => simp [Re.deriv, lang_alt_iff, iha, ihb]
  | cat a b iha ihb =>
    have key : Lang (.cat a b) (c :: w) ↔ (∃ u v, w = u ++ v ∧ Lang a (c :: u) ∧ Lang b v) ∨ (Lang a [] ∧ Lang b (c :: w)) := by
      rw [lang_cat_iff]
      constructor
      · rintro ⟨u, v, h, h1, h2⟩
        cases u with
        | nil => right; simp at h; subst h; exact ⟨h1, h2⟩
        | cons d u =>
          left
          simp only [List.cons_append, List.cons.injEq] at h
          obtain ⟨rfl, rfl⟩ := h
          exact ⟨u, v, rfl, h1, h2⟩
      · rintro (⟨u, v, rfl, h1, h2⟩ | ⟨h1, h2⟩)
        · exact ⟨c :: u, v, rfl, h1, h2⟩
        · exact ⟨[], c :: w, rfl, h1, h2⟩
    rw [key]
    simp only [Re.deriv]
    split
    · rename_i hn
      rw [lang_alt_iff, lang_cat_iff, ihb]
      simp only [iha, (nullable_iff a).1 hn, true_and]
    · rename_i hn
      have : ¬ Lang a [] := fun h => hn ((nullable_iff a).2 h)
      rw [lang_cat_iff]
      simp only [iha, this, false_and, or_false]
  | star a ih =>
    simp only [Re.deriv, lang_cat_iff, ih]
    constructor
    · rintro ⟨u, v, rfl, h1, h2⟩
      exact Lang.starCons (v := c :: u) h1 h2
    · exact lang_star_cons

/-- The matcher decides the language of the expression. -/
theorem matches_iff (r : Re) (w : List Char) : r.matches w = true ↔ Lang r w := by
  induction w generalizing r with
  | nil => exact nullable_iff r
  | cons c w ih => rw [Re.matches, ih, deriv_iff]

theorem lang_star_chr {p : Char → Bool} {w : List Char} : Lang (.star (.chr p)) w ↔ ∀ c ∈ w, p c = true := by
  induction w with
  | nil => simp [Lang.starNil]
  | cons c w ih =>
    constructor
    · intro h
      obtain ⟨u, v, rfl, h1, h2⟩ := lang_star_cons h
      obtain ⟨d, hd, he⟩ := lang_chr_iff.1 h1
      simp only [List.cons.injEq] at he
      obtain ⟨rfl, rfl⟩ := he
      intro x hx
      rcases List.mem_cons.1 hx with rfl | hx
      · exact hd
      · exact (ih.1 h2) x hx
    · intro h
      have h1 : Lang (.star (.chr p)) w := ih.2 fun x hx => h x (List.mem_cons_of_mem _ hx)
      exact Lang.starCons (v := [c]) (.chr (h c List.mem_cons_self)) h1

end ICPC
