import Verif.Model.Multipass
import Verif.Props.Input

namespace ICPC.Props
open Spec

theorem readPass_print (k : Nat) (h : (k : Int) < 2 ^ 63) : readPass (printInt k) = k := by
  have hp := parseInteger_decimal (k : Int)
  have h64 : I64 (k : Int) := ⟨by omega, h⟩
  rw [if_pos h64] at hp
  have hd : decimal (k : Int) = natDecimal k := by unfold decimal; rw [if_neg (by omega)]; rfl
  rw [printInt_eq]
  unfold readPass
  unfold parseInteger at hp
  have hskip : Stream.skipWs (decimal (k : Int)) = decimal (k : Int) := by
    have hall := natDecimal_digits k
    rw [hd]
    unfold Stream.skipWs
    cases hc : natDecimal k with
    | nil => rfl
    | cons c r =>
      have hdig := hall c (by rw [hc]; simp)
      rw [List.dropWhile_cons_of_neg]
      rw [isDigitC_iff] at hdig
      simp only [isSpaceC, Bool.or_eq_true, beq_iff_eq, Bool.and_eq_true, decide_eq_true_eq, not_or]
      refine ⟨?_, by omega⟩
      rintro rfl
      revert hdig; decide
  rw [hskip]
  split at hp
  · next v hf => rw [hf]; exact Option.some.inj hp
  · cases hp

/-- The names of the two state files by parity of the pass. -/
def stateFile (k : Nat) : String := if k % 2 = 0 then ".state0" else ".state1"

theorem stateFile_succ_ne (k : Nat) : stateFile (k + 1) ≠ stateFile k := by
  unfold stateFile
  rcases Nat.mod_two_eq_zero_or_one k with h | h
  · rw [if_neg (show ¬ (k + 1) % 2 = 0 by omega), if_pos h]; decide
  · rw [if_pos (show (k + 1) % 2 = 0 by omega), if_neg (by omega)]; decide

theorem stateFile_ne_pass (k : Nat) : stateFile k ≠ ".pass" := by
  unfold stateFile; split <;> decide

/-- The globals in pass `k + 1`. -/
def sessionOf (k : Nat) : Session := { pass := (k + 1 : Nat), prev := some (stateFile k), next := stateFile (k + 1) }

theorem init_zero {d : Dir} (h : d ".pass" = none) :
    ∃ d', multipassInit d = .ok ({ pass := 0, prev := none, next := stateFile 0 }, d') ∧
      d' ".pass" = some (printInt 0) ∧ d' (stateFile 0) = some [] := by
  refine ⟨_, by simp only [multipassInit, h, ok_bind]; rfl, by simp [Dir.put], by simp [Dir.put, stateFile]⟩

theorem init_succ {d : Dir} {k : Nat} {t : List Char} (hk : ((k + 1 : Nat) : Int) < 2 ^ 63)
    (h : d ".pass" = some (printInt k)) (ht : d (stateFile k) = some t) :
    ∃ d', multipassInit d = .ok (sessionOf k, d') ∧
      d' ".pass" = some (printInt (k + 1 : Nat)) ∧ d' (stateFile (k + 1)) = some [] ∧ d' (stateFile k) = some t := by
  have hr : chk (readPass (printInt k) + 1) = .ok ((k + 1 : Nat) : Int) := by
    rw [readPass_print k (by omega)]
    rw [chk_ok (⟨by omega, by omega⟩ : I64 ((k : Int) + 1))]
    push_cast; rfl
  have hfiles : (if ((k + 1 : Nat) : Int) % 2 ≠ 0 then (".state1", ".state0") else (".state0", ".state1")) =
      (stateFile (k + 1), stateFile k) := by
    unfold stateFile
    rcases Nat.mod_two_eq_zero_or_one k with h | h
    · rw [if_pos (by omega), if_neg (by omega), if_pos h]
    · rw [if_neg (by omega), if_pos (by omega), if_neg (by omega)]
  have hne := stateFile_succ_ne k
  refine ⟨_, by
    simp only [multipassInit, h, hr, ok_bind, hfiles, ht, Option.isSome_some, judgeAssert_true]; rfl,
    by simp [Dir.put], ?_, ?_⟩
  · simp [Dir.put, stateFile_ne_pass]
  · simp [Dir.put, stateFile_ne_pass, hne.symm, ht]

theorem writes (s : Session) (f : String) : ∀ (w : List (List Char)) (d : Dir),
    (f ≠ s.next → (w.foldl s.write d) f = d f) ∧
    (∀ t, d s.next = some t → (w.foldl s.write d) s.next = some (t ++ w.flatten)) := by
  intro w
  induction w with
  | nil => intro d; exact ⟨fun _ => rfl, fun t h => by simpa using h⟩
  | cons a w ih =>
    intro d
    constructor
    · intro hf
      rw [List.foldl_cons, (ih _).1 hf]
      simp [Session.write, Dir.put, hf]
    · intro t ht
      rw [List.foldl_cons, (ih _).2 (t ++ a) (by simp [Session.write, Dir.put, ht])]
      simp

theorem run_append : ∀ (a b : List (List (List Char))) (d : Dir),
    multipassRun d (a ++ b) = multipassRun d a >>= fun d => multipassRun d b := by
  intro a
  induction a with
  | nil => intro b d; rfl
  | cons w a ih =>
    intro b d
    simp only [List.cons_append, multipassRun]
    cases multipassInit d with
    | error _ => rfl
    | ok x => exact ih b _

/-- The directory between two passes. -/
theorem after_passes (d : Dir) (h : d ".pass" = none) (ws : List (List (List Char))) (w : List (List Char))
    (hl : ((ws.length + 1 : Nat) : Int) < 2 ^ 63) :
    ∃ d', multipassRun d (ws ++ [w]) = .ok d' ∧ d' ".pass" = some (printInt ws.length) ∧
      d' (stateFile ws.length) = some w.flatten := by
  induction ws using List.reverseRecOn generalizing w with
  | nil =>
    obtain ⟨d1, h1, h2, h3⟩ := init_zero h
    refine ⟨w.foldl (Session.write { pass := 0, prev := none, next := stateFile 0 }) d1, by simp only [List.nil_append, multipassRun, h1, ok_bind], ?_, ?_⟩
    · rw [(writes _ ".pass" w d1).1 (by simp [stateFile])]; exact h2
    · simpa using (writes { pass := 0, prev := none, next := stateFile 0 } "" w d1).2 [] h3
  | append_singleton ws v ih =>
    simp only [List.length_append, List.length_singleton] at hl ⊢
    obtain ⟨d1, h1, h2, h3⟩ := ih v (by omega)
    obtain ⟨d2, h4, h5, h6, _⟩ := init_succ (by omega) h2 h3
    rw [run_append, h1, ok_bind]
    refine ⟨w.foldl (sessionOf ws.length).write d2, by simp only [multipassRun, h4, ok_bind], ?_, ?_⟩
    · rw [(writes _ ".pass" w d2).1 (stateFile_ne_pass _).symm]; exact h5
    · have h8 := (writes (sessionOf ws.length) "" w d2).2 [] h6
      rw [List.nil_append] at h8
      exact h8

/-- **C40**, first pass: in a directory without `.pass` (whatever else it contains) the number is 0, and there is no
previous state to be read. -/
theorem C40_first (d : Dir) (h : d ".pass" = none) :
    ∃ s d', multipassInit d = .ok (s, d') ∧ s.pass = 0 ∧ ∀ w : List (List Char), s.read (w.foldl s.write d') = .error .throw := by
  obtain ⟨d', h1, _⟩ := init_zero h
  exact ⟨_, d', h1, rfl, fun _ => rfl⟩

/-- **C40.** After passes 0, ..., k - 1 which wrote `ws` and finally `last`, pass `k` has the number `k` and reads
exactly what pass `k - 1` wrote, no matter what earlier passes wrote, what the directory contained at the beginning
(except `.pass`), and what pass `k` itself has already written. -/
theorem C40_previous (d : Dir) (h : d ".pass" = none) (ws : List (List (List Char))) (last : List (List Char))
    (hl : ((ws.length + 1 : Nat) : Int) < 2 ^ 63) :
    ∃ d1 s d2, multipassRun d (ws ++ [last]) = .ok d1 ∧ multipassInit d1 = .ok (s, d2) ∧
      s.pass = (ws ++ [last]).length ∧ ∀ w : List (List Char), s.read (w.foldl s.write d2) = .ok last.flatten := by
  obtain ⟨d1, h1, h2, h3⟩ := after_passes d h ws last hl
  obtain ⟨d2, h4, _, _, h7⟩ := init_succ hl h2 h3
  refine ⟨d1, _, d2, h1, h4, by simp [sessionOf], fun w => ?_⟩
  have := (writes (sessionOf ws.length) (stateFile ws.length) w d2).1 (stateFile_succ_ne _).symm
  show (match (w.foldl (sessionOf ws.length).write d2) (stateFile ws.length) with
    | some t => (Except.ok t : Out (List Char))
    | none => .error .throw) = _
  rw [this, h7]

/-- What the third pass reads, after leftovers of other runs in the directory, while it has already written something. -/
def demoPasses : Option (Int × List Char) :=
  let d : Dir := fun n => if n = ".state1" then some "old".toList else none
  match multipassRun d [["a".toList], ["b".toList, "c".toList]] with
  | .error _ => none
  | .ok d => match multipassInit d with
    | .error _ => none
    | .ok (s, d) => match s.read (s.write d "new".toList) with
      | .ok t => some (s.pass, t)
      | .error _ => none

example : demoPasses = some (2, "bc".toList) := by decide +kernel

end ICPC.Props
