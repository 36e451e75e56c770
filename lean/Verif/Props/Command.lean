import Verif.Model.Command
import Verif.Spec.Command
import Verif.Props.Constraint

namespace ICPC.Props
open Spec

theorem isCommand_iff (s : List Char) : isCommand s = true ↔ IsCmd s := by
  unfold isCommand IsCmd
  match s with
  | [] => simp
  | [a] => simp
  | [a, b] => simp
  | a :: b :: c :: r =>
    simp only [List.length_cons, List.take_succ_cons, List.take_zero, Bool.and_eq_true, decide_eq_true_eq, beq_iff_eq,
      List.cons.injEq, and_true]
    constructor
    · rintro ⟨_, rfl, rfl⟩; exact ⟨c, r, rfl, rfl, rfl, rfl⟩
    · rintro ⟨_, _, h1, h2, _⟩; exact ⟨by omega, h1, h2⟩

/-- The entries the constructor adds. -/
def segments : List (List Char) → Nat → List Char → Nat → Nat → List (List Char × Nat × Nat)
  | [], _, command, first, count => [(command, first, count)]
  | s :: rest, i, command, first, count =>
    if isCommand s then (command, first, count) :: segments rest (i + 1) s (i + 1) 0
    else segments rest (i + 1) command first (count + 1)

theorem segments_keys : ∀ (l : List (List Char)) (i : Nat) (c : List Char) (f k : Nat),
    (segments l i c f k).map Prod.fst = c :: l.filter isCommand := by
  intro l
  induction l with
  | nil => intros; rfl
  | cons s l ih =>
    intro i c f k
    unfold segments
    by_cases h : isCommand s = true
    · simp [h, ih]
    · simp [h, ih]

theorem lookup_none {β : Type} (n : List Char) (m : List (List Char × β)) :
    m.lookup n = none ↔ n ∉ m.map Prod.fst := by
  induction m with
  | nil => simp
  | cons p m ih =>
    rw [List.lookup_cons]
    by_cases h : n = p.1
    · simp [h]
    · have : (n == p.1) = false := by simpa using h
      simp [this, ih, h]

theorem lookup_of_mem {β : Type} {n : List Char} {v : β} : ∀ {m : List (List Char × β)}, (m.map Prod.fst).Nodup →
    (n, v) ∈ m → m.lookup n = some v := by
  intro m
  induction m with
  | nil => simp
  | cons p m ih =>
    intro hnd hm
    rw [List.lookup_cons]
    simp only [List.map_cons, List.nodup_cons] at hnd
    rcases List.mem_cons.1 hm with h | h
    · subst h; simp
    · have hne : n ≠ p.1 := by
        rintro rfl; exact hnd.1 (List.mem_map.2 ⟨_, h, rfl⟩)
      have : (n == p.1) = false := by simpa using hne
      simp only [this]
      exact ih hnd.2 h

theorem addCommand_ok {m : List (List Char × Nat × Nat)} {c : List Char} (h : c ∉ m.map Prod.fst) (f k : Nat) :
    addCommand m c f k = .ok (m ++ [(c, f, k)]) := by
  simp [addCommand, (lookup_none c m).2 h, judgeAssert_true, ok_bind]

theorem addCommand_throw {m : List (List Char × Nat × Nat)} {c : List Char} (h : c ∈ m.map Prod.fst) (f k : Nat) :
    addCommand m c f k = .error .throw := by
  have : (m.lookup c).isNone = false := by
    cases hl : m.lookup c with
    | none => exact absurd h ((lookup_none c m).1 hl)
    | some _ => rfl
  simp [addCommand, this, judgeAssert_false, error_bind]

/-- The map of tokens. -/
def tokenMap : List (List Char) → Nat → List (List Char × Nat) → List (List Char × Nat)
  | [], _, m => m
  | s :: l, i, m => tokenMap l (i + 1) (emplaceToken m s (i + 1))

theorem parserLoop_spec : ∀ (l : List (List Char)) (i : Nat) (c : List Char) (f k : Nat)
    (m : List (List Char × Nat × Nat)) (t : List (List Char × Nat)), (m.map Prod.fst).Nodup →
    parserLoop l i c f k m t = if ((m ++ segments l i c f k).map Prod.fst).Nodup then
      .ok (m ++ segments l i c f k, tokenMap l i t) else .error .throw := by
  intro l
  induction l with
  | nil =>
    intro i c f k m t hnd
    by_cases h : c ∈ m.map Prod.fst
    · rw [if_neg]
      · simp [parserLoop, addCommand_throw h, error_bind]
      · rw [List.map_append, List.nodup_append]
        exact fun hx => hx.2.2 c h c (by simp [segments]) rfl
    · rw [if_pos]
      · simp [parserLoop, addCommand_ok h, ok_bind, segments, tokenMap]
      · rw [List.map_append, List.nodup_append]
        refine ⟨hnd, by simp [segments], ?_⟩
        intro a ha b hb
        simp only [segments, List.map_cons, List.map_nil, List.mem_singleton] at hb
        subst hb; rintro rfl; exact h ha
  | cons s l ih =>
    intro i c f k m t hnd
    by_cases hs : isCommand s = true
    · by_cases h : c ∈ m.map Prod.fst
      · rw [if_neg]
        · simp [parserLoop, hs, addCommand_throw h, error_bind]
        · rw [List.map_append, List.nodup_append, segments_keys]
          exact fun hx => hx.2.2 c h c (by simp) rfl
      · have hnd' : ((m ++ [(c, f, k)]).map Prod.fst).Nodup := by
          rw [List.map_append, List.nodup_append]
          refine ⟨hnd, by simp, ?_⟩
          intro a ha b hb
          simp only [List.map_cons, List.map_nil, List.mem_singleton] at hb
          subst hb; rintro rfl; exact h ha
        simp only [parserLoop, hs, if_true, addCommand_ok h, ok_bind, segments, tokenMap]
        rw [ih _ _ _ _ _ _ hnd']
        simp
    · simp only [parserLoop, hs, segments, tokenMap]
      exact ih _ _ _ _ _ _ hnd

theorem parseArgs_spec (argv : List (List Char)) :
    parseArgs argv = if (argv.filter isCommand).Nodup then
      .ok { raw := argv, commands := segments argv 0 [] 0 0, tokens := tokenMap argv 0 [] } else .error .throw := by
  unfold parseArgs
  rw [parserLoop_spec _ _ _ _ _ _ _ (by simp)]
  have hk : (([] ++ segments argv 0 [] 0 0).map Prod.fst).Nodup ↔ (argv.filter isCommand).Nodup := by
    rw [List.nil_append, segments_keys, List.nodup_cons]
    refine ⟨fun h => h.2, fun h => ⟨?_, h⟩⟩
    intro hm
    simpa [isCommand] using (List.mem_filter.1 hm).2
  by_cases h : (argv.filter isCommand).Nodup
  · rw [if_pos (hk.2 h), if_pos h]; simp [ok_bind]
  · rw [if_neg (fun x => h (hk.1 x)), if_neg h, error_bind]

theorem noRepeated_iff (argv : List (List Char)) : (argv.filter isCommand).Nodup ↔ NoRepeatedCommand argv := by
  induction argv with
  | nil => simp [NoRepeatedCommand]
  | cons s l ih =>
    have step : NoRepeatedCommand (s :: l) ↔ NoRepeatedCommand l ∧ (IsCmd s → s ∉ l) := by
      constructor
      · intro h
        refine ⟨fun i j hi hj hc he => ?_, fun hc hm => ?_⟩
        · have := h (i + 1) (j + 1) (by simpa using hi) (by simpa using hj) (by simpa using hc) (by simpa using he)
          omega
        · obtain ⟨j, hj, he⟩ := List.getElem_of_mem hm
          have := h 0 (j + 1) (by simp) (by simpa using hj) (by simpa using hc) (by simpa using he.symm)
          omega
      · rintro ⟨h1, h2⟩ i j hi hj hc he
        cases i with
        | zero =>
          cases j with
          | zero => rfl
          | succ j =>
            simp only [List.getElem_cons_zero, List.getElem_cons_succ] at hc he
            exact absurd (he ▸ List.getElem_mem _) (h2 hc)
        | succ i =>
          cases j with
          | zero =>
            simp only [List.getElem_cons_zero, List.getElem_cons_succ] at hc he
            exact absurd (he ▸ List.getElem_mem _) (h2 (he ▸ hc))
          | succ j =>
            simp only [List.getElem_cons_succ] at hc he
            rw [h1 i j (by simpa using hi) (by simpa using hj) hc he]
    rw [step, ← ih]
    by_cases hs : isCommand s = true
    · rw [List.filter_cons_of_pos hs, List.nodup_cons]
      have hc := (isCommand_iff s).1 hs
      have : s ∈ l.filter isCommand ↔ s ∈ l := by simp [List.mem_filter, hs]
      rw [this]
      exact ⟨fun h => ⟨h.2, fun _ => h.1⟩, fun h => ⟨h.2 hc, h.1⟩⟩
    · rw [List.filter_cons_of_neg hs]
      exact ⟨fun h => ⟨h, fun hc => absurd ((isCommand_iff s).2 hc) hs⟩, fun h => h.1⟩

/-- **C39**, repeated commands: the constructor throws exactly if some command occurs twice. -/
theorem C39_repeated (argv : List (List Char)) :
    (NoRepeatedCommand argv → ∃ p, parseArgs argv = .ok p) ∧
    (¬ NoRepeatedCommand argv → parseArgs argv = .error .throw) := by
  rw [← noRepeated_iff, parseArgs_spec]
  exact ⟨fun h => ⟨_, if_pos h⟩, fun h => if_neg h⟩

theorem segments_args (n : List Char) (post : List (List Char)) : ∀ (args : List (List Char)) (i f k : Nat),
    ArgumentsOf args post → (n, f, k + args.length) ∈ segments (args ++ post) i n f k := by
  intro args
  induction args with
  | nil =>
    rintro i f k ⟨_, rfl | ⟨m, r, rfl, hm⟩⟩
    · simp [segments]
    · simp [segments, (isCommand_iff m).2 hm]
  | cons a args ih =>
    rintro i f k ⟨h1, h2⟩
    have ha : ¬ isCommand a = true := fun h => h1 a (by simp) ((isCommand_iff a).1 h)
    have := ih (i + 1) f (k + 1) ⟨fun b hb => h1 b (by simp [hb]), h2⟩
    simp only [List.cons_append, segments, ha, List.length_cons]
    rw [show k + (args.length + 1) = k + 1 + args.length by omega]
    exact this

theorem segments_pre (n : List Char) (hn : isCommand n = true) (t : List (List Char)) : ∀ (pre : List (List Char))
    (i : Nat) (c : List Char) (f k : Nat),
    ∀ x ∈ segments t (i + pre.length + 1) n (i + pre.length + 1) 0, x ∈ segments (pre ++ n :: t) i c f k := by
  intro pre
  induction pre with
  | nil => intro i c f k x hx; simpa [segments, hn] using .inr hx
  | cons a pre ih =>
    intro i c f k x hx
    simp only [List.length_cons] at hx
    rw [show i + (pre.length + 1) + 1 = i + 1 + pre.length + 1 by omega] at hx
    simp only [List.cons_append, segments]
    split
    · exact List.mem_cons_of_mem _ (ih _ _ _ _ x hx)
    · exact ih _ _ _ _ x hx

theorem make_spec (raw : List (List Char)) (first : Nat) (args post : List (List Char))
    (h : raw.drop first = args ++ post) :
    ∃ c, Command.make raw first args.length = .ok c ∧ c.found = true ∧ c.count = args.length ∧ c.token = args.head? ∧
      c.asStrings = args ∧ ∀ i : Int, c.param i = .ok (if 0 ≤ i then args[i.toNat]? else none) := by
  have hget : ∀ j, j < args.length → raw[first + j]? = args[j]? := fun j hj => by
    rw [← List.getElem?_drop, h, List.getElem?_append_left hj]
  have hparam : ∀ c : Command, c.raw = raw → c.first = first → c.count = args.length →
      ∀ i : Int, c.param i = .ok (if 0 ≤ i then args[i.toNat]? else none) := by
    intro c h1 h2 h3 i
    unfold Command.param
    rw [h1, h2, h3]
    by_cases h0 : 0 ≤ i
    · by_cases hi : i < args.length
      · have hj : i.toNat < args.length := by omega
        rw [if_pos ⟨h0, hi⟩, hget _ hj, if_pos h0, List.getElem?_eq_getElem hj]
      · rw [if_neg (fun x => hi x.2), if_pos h0, List.getElem?_eq_none (by omega)]
    · rw [if_neg (fun x => h0 x.1), if_neg h0]
  cases args with
  | nil =>
    refine ⟨_, by simp [Command.make]; rfl, rfl, rfl, rfl, by simp [Command.asStrings], hparam _ rfl rfl rfl⟩
  | cons a args =>
    have h0 := hget 0 (by simp)
    simp only [Nat.add_zero, List.getElem?_cons_zero] at h0
    refine ⟨_, by simp [Command.make, h0]; rfl, rfl, by simp, rfl, ?_, hparam _ rfl rfl (by simp)⟩
    simp only [Command.asStrings]
    rw [h]
    simp

/-- **C39.** A command yields exactly the arguments between it and the next command (or the end). -/
theorem C39_arguments (pre args post : List (List Char)) (n : List Char) (p : CommandParser) (hn : IsCmd n)
    (ht : ∀ c ∈ n, ¬ White c) (ha : ArgumentsOf args post) (hp : parseArgs (pre ++ n :: (args ++ post)) = .ok p) :
    ∃ c, p.get n = .ok c ∧ c.found = true ∧ c.count = args.length ∧ c.token = args.head? ∧ c.asStrings = args ∧
      ∀ i : Int, c.param i = .ok (if 0 ≤ i then args[i.toNat]? else none) := by
  rw [parseArgs_spec] at hp
  by_cases hnd : ((pre ++ n :: (args ++ post)).filter isCommand).Nodup
  · rw [if_pos hnd] at hp
    obtain rfl := Except.ok.inj hp
    have htok : isToken n = true := (token_iff n).2 ⟨by obtain ⟨c, r, rfl⟩ := hn; simp, ht⟩
    have hmem : (n, pre.length + 1, args.length) ∈ segments (pre ++ n :: (args ++ post)) 0 [] 0 0 := by
      refine segments_pre n ((isCommand_iff n).2 hn) (args ++ post) pre 0 [] 0 0 _ ?_
      have := segments_args n post args (0 + pre.length + 1) (0 + pre.length + 1) 0 ha
      simpa using this
    have hkeys : ((segments (pre ++ n :: (args ++ post)) 0 [] 0 0).map Prod.fst).Nodup := by
      rw [segments_keys, List.nodup_cons]
      exact ⟨fun hm => by simpa [isCommand] using (List.mem_filter.1 hm).2, hnd⟩
    have hl := lookup_of_mem hkeys hmem
    have hd : (pre ++ n :: (args ++ post)).drop (pre.length + 1) = args ++ post := by
      rw [← List.drop_drop, List.drop_left]; rfl
    obtain ⟨c, hc, hrest⟩ := make_spec _ _ _ _ hd
    refine ⟨c, ?_, hrest⟩
    simp only [CommandParser.get, htok, judgeAssert_true, ok_bind, hl]
    exact hc
  · rw [if_neg hnd] at hp; cases hp

/-- **C39**, missing commands: everything uses the default. -/
theorem C39_missing (argv : List (List Char)) (n : List Char) (p : CommandParser) (hn : n ≠ []) (ht : ∀ c ∈ n, ¬ White c)
    (hm : ¬ (IsCmd n ∧ n ∈ argv)) (hp : parseArgs argv = .ok p) :
    ∃ c, p.get n = .ok c ∧ c.found = false ∧ c.count = 0 ∧ c.asStrings = [] ∧ (∀ i, c.param i = .ok none) ∧
      (∀ d, asStringOr c.token d = d) ∧ (∀ d, asIntegerOr c.token d = .ok d) := by
  rw [parseArgs_spec] at hp
  by_cases hnd : (argv.filter isCommand).Nodup
  · rw [if_pos hnd] at hp
    obtain rfl := Except.ok.inj hp
    have hl : (segments argv 0 [] 0 0).lookup n = none := by
      rw [lookup_none, segments_keys]
      intro hx
      rcases List.mem_cons.1 hx with h | h
      · exact hn h
      · obtain ⟨h1, h2⟩ := List.mem_filter.1 h
        exact hm ⟨(isCommand_iff n).1 h2, h1⟩
    refine ⟨Command.missing argv, by simp [CommandParser.get, (token_iff n).2 ⟨hn, ht⟩, judgeAssert_true, ok_bind, hl],
      rfl, rfl, by simp [Command.asStrings, Command.missing], ?_, fun _ => rfl, fun _ => rfl⟩
    intro i
    unfold Command.param
    rw [if_neg]
    simp only [Command.missing]
    omega
  · rw [if_neg hnd] at hp; cases hp

theorem tokenMap_lookup (n : List Char) : ∀ (l : List (List Char)) (i : Nat) (m : List (List Char × Nat)),
    (∀ v, m.lookup n = some v → (tokenMap l i m).lookup n = some v) ∧
    (m.lookup n = none → (tokenMap l i m).lookup n = if n ∈ l then some (i + l.idxOf n + 1) else none) := by
  intro l
  induction l with
  | nil => intro i m; exact ⟨fun _ h => h, fun h => by simpa [tokenMap] using h⟩
  | cons s l ih =>
    intro i m
    have happ : ∀ (k : List Char) (v : Nat), (m ++ [(k, v)]).lookup n = (m.lookup n).or (if n = k then some v else none) := by
      intro k v
      rw [List.lookup_append]
      by_cases h : n = k
      · simp [h]
      · have : (n == k) = false := by simpa using h
        simp [h, List.lookup_cons, this]
    constructor
    · intro v hv
      simp only [tokenMap]
      apply (ih _ _).1
      unfold emplaceToken
      split
      · exact hv
      · rw [happ, hv]; rfl
    · intro hv
      simp only [tokenMap]
      by_cases hs : n = s
      · subst hs
        have : (emplaceToken m n (i + 1)).lookup n = some (i + 1) := by
          unfold emplaceToken
          rw [hv]
          simp [happ, hv]
        rw [(ih _ _).1 _ this]
        simp
      · have : (emplaceToken m s (i + 1)).lookup n = none := by
          unfold emplaceToken
          split
          · exact hv
          · rw [happ, hv]; simp [hs]
        rw [(ih _ _).2 this]
        have hs' : s ≠ n := fun h => hs h.symm
        simp only [List.mem_cons, hs, false_or]
        by_cases hl : n ∈ l
        · simp only [hl, if_true]
          rw [List.idxOf_cons_ne _ hs']
          congr 1; omega
        · simp [hl]

/-- **C39**, `getRaw`: everything after the first occurrence of a token, commands included. -/
theorem C39_getRaw (pre rest : List (List Char)) (n : List Char) (p : CommandParser) (hne : n ≠ [])
    (ht : ∀ c ∈ n, ¬ White c) (hn : n ∉ pre) (hp : parseArgs (pre ++ n :: rest) = .ok p) :
    ∃ c, p.getRaw n = .ok c ∧ c.found = true ∧ c.count = rest.length ∧ c.asStrings = rest := by
  rw [parseArgs_spec] at hp
  by_cases hnd : ((pre ++ n :: rest).filter isCommand).Nodup
  · rw [if_pos hnd] at hp
    obtain rfl := Except.ok.inj hp
    have hl := (tokenMap_lookup n (pre ++ n :: rest) 0 []).2 rfl
    rw [if_pos (by simp), List.idxOf_append_of_notMem hn, List.idxOf_cons_self] at hl
    have hd : (pre ++ n :: rest).drop (pre.length + 1) = rest ++ [] := by
      rw [← List.drop_drop, List.drop_left]; simp
    obtain ⟨c, hc, h1, h2, _, h3, _⟩ := make_spec _ _ _ _ hd
    refine ⟨c, ?_, h1, h2, h3⟩
    simp only [CommandParser.getRaw, (token_iff n).2 ⟨hne, ht⟩, judgeAssert_true, ok_bind, hl]
    rw [← hc]
    congr 1
    · omega
    · simp; omega
  · rw [if_neg hnd] at hp; cases hp

/-- **C39**, names that are no tokens are refused. -/
theorem C39_name_throws (p : CommandParser) (n : List Char) (h : n = [] ∨ ∃ c ∈ n, White c) :
    p.get n = .error .throw ∧ p.getRaw n = .error .throw := by
  have : isToken n = false := by
    by_contra hx
    obtain ⟨h1, h2⟩ := (token_iff n).1 (by simpa using hx)
    rcases h with h | ⟨c, hc, hw⟩
    · exact h1 h
    · exact h2 c hc hw
  simp [CommandParser.get, CommandParser.getRaw, this, judgeAssert_false, error_bind]

/-- What a command line yields for a name. -/
def demoArgs (argv : List String) (n : String) : Option (Bool × List String) :=
  match parseArgs (argv.map String.toList) with
  | .ok p => match p.get n.toList with
    | .ok c => some (c.found, c.asStrings.map String.ofList)
    | .error _ => none
  | .error _ => none

example : demoArgs ["gen", "x", "--n", "5", "-7", "--", "--m"] "--n" = some (true, ["5", "-7", "--"]) := by decide +kernel
example : demoArgs ["gen", "x", "--n", "5", "--m"] "--m" = some (true, []) := by decide +kernel
example : demoArgs ["gen", "x", "--n", "5"] "--k" = some (false, []) := by decide +kernel
example : demoArgs ["gen", "x", "--n", "5"] "x" = some (false, []) := by decide +kernel
example : demoArgs ["gen", "--n", "5", "--n", "6"] "--n" = none := by decide +kernel
/-- `getRaw` of a token that occurs twice: the arguments after the first occurrence. -/
example : (parseArgs (["gen", "x", "1", "x", "--n"].map String.toList) >>= fun p => p.getRaw "x".toList).map Command.asStrings =
    .ok (["1", "x", "--n"].map String.toList) := by decide +kernel
/-- `asInteger` is not strict: a plus sign may precede a minus sign. -/
example : asInteger (some "+-5".toList) = .ok (-5) := by decide +kernel

end ICPC.Props
