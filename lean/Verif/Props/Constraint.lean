import Verif.Lemmas.Constraint
import Verif.Props.Chars
import Verif.Props.Input

namespace ICPC.Props
open Spec

variable {R : Type}

theorem run_snoc (o : BoundOps R) (h : List (Event R)) (e : Event R) : ∀ l : Logger R,
    l.run o (h ++ [e]) = l.run o h >>= fun l => l.step o e := by
  induction h with
  | nil =>
    intro l
    simp only [List.nil_append, Logger.run, ok_bind]
    cases l.step o e <;> rfl
  | cons a h ih =>
    intro l
    simp only [List.cons_append, Logger.run]
    cases l.step o a with
    | error _ => rfl
    | ok l' => simpa [ok_bind] using ih l'

theorem lookup_zipIdx (n : List Char) : ∀ (ns : List (List Char)) (k : Nat),
    (n ∉ ns → (ns.zipIdx k).lookup n = none) ∧
    (n ∈ ns → ∃ i, (ns.zipIdx k).lookup n = some (k + i) ∧ ns[i]? = some n) := by
  intro ns
  induction ns with
  | nil => intro k; simp
  | cons a ns ih =>
    intro k
    simp only [List.zipIdx_cons, List.lookup_cons]
    by_cases h : n = a
    · subst h; exact ⟨fun h => absurd (by simp) h, fun _ => ⟨0, by simp, by simp⟩⟩
    · have hb : (n == a) = false := by simpa using h
      simp only [hb, List.mem_cons, h, false_or]
      refine ⟨(ih (k + 1)).1, fun hm => ?_⟩
      obtain ⟨i, h1, h2⟩ := (ih (k + 1)).2 hm
      exact ⟨i + 1, by rw [h1]; congr 1; omega, by simpa using h2⟩

theorem names_zipIdx : ∀ (ns pre : List (List Char)),
    (ns.zipIdx pre.length).foldl (fun names p => names.set p.2 p.1) (pre ++ List.replicate ns.length []) = pre ++ ns := by
  intro ns
  induction ns with
  | nil => intro pre; simp
  | cons a ns ih =>
    intro pre
    have := ih (pre ++ [a])
    simp only [List.length_append, List.length_singleton, List.append_assoc, List.singleton_append] at this
    simp only [List.zipIdx_cons, List.foldl_cons, List.length_cons, List.replicate_succ]
    rw [List.set_append_right _ _ (le_refl _)]
    simpa using this

theorem entriesOf_snoc (h : List (Event R)) (e : Event R) (n : List Char) :
    entriesOf (h ++ [e]) n = entriesOf h n ++ (if e.name = n then e.entry.toList else []) := by
  unfold entriesOf
  rw [List.filterMap_append]
  congr 1
  by_cases hn : e.name = n <;> cases he : e.entry <;> simp [hn, he]

/-- The state of the logger after a history. -/
def Inv [LinearOrder R] (hits : R → R → Prop) (h : List (Event R)) (l : Logger R) : Prop :=
  ∃ ns : List (List Char), ns.Nodup ∧ l.byName = ns.zipIdx ∧ l.constraints.length = ns.length ∧
    (∀ n, n ∈ ns ↔ n ∈ h.map Event.name) ∧
    ns.Pairwise (fun a b => (h.map Event.name).idxOf a < (h.map Event.name).idxOf b) ∧
    ∀ (i : Nat) n c, ns[i]? = some n → l.constraints[i]? = some c → ConstraintOK hits (entriesOf h n) c

/-- What one event needs. -/
def Allowed (h : List (Event R)) (e : Event R) : Prop :=
  isToken e.name = true ∧ ∀ x, e.entry = some x → UpperOK x ∧ ∀ y ∈ entriesOf h e.name, kind y = kind x

theorem get_spec [LinearOrder R] {hits : R → R → Prop} {h : List (Event R)} {l : Logger R} (hl : Inv hits h l)
    (n : List Char) (ht : isToken n = true) :
    ∃ l' i, l.get n = .ok (l', i) ∧ Inv hits (h ++ [⟨n, none⟩]) l' ∧
      ∃ (ns : List (List Char)) (c : Constraint R), l'.byName = ns.zipIdx ∧ ns[i]? = some n ∧ l'.constraints[i]? = some c ∧
        ConstraintOK hits (entriesOf h n) c := by
  obtain ⟨ns, hnd, hbn, hlen, hmem, hord, hc⟩ := hl
  have hent : ∀ m, entriesOf (h ++ [(⟨n, none⟩ : Event R)]) m = entriesOf h m := fun m => by
    rw [entriesOf_snoc]; simp
  have hidx : ∀ a ∈ ns, ((h ++ [(⟨n, none⟩ : Event R)]).map Event.name).idxOf a = (h.map Event.name).idxOf a := fun a ha => by
    rw [List.map_append, List.idxOf_append_of_mem ((hmem a).1 ha)]
  by_cases hn : n ∈ ns
  · obtain ⟨i, h1, h2⟩ := (lookup_zipIdx n ns 0).2 hn
    rw [Nat.zero_add] at h1
    have hi : i < l.constraints.length := by
      rw [hlen]; exact (List.getElem?_eq_some_iff.1 h2).1
    refine ⟨l, i, by simp [Logger.get, ht, judgeAssert_true, ok_bind, hbn, h1], ⟨ns, hnd, hbn, hlen, ?_, ?_, ?_⟩,
      ns, l.constraints[i], hbn, h2, List.getElem?_eq_getElem hi, hc i n _ h2 (List.getElem?_eq_getElem hi)⟩
    · intro m
      rw [hmem m, List.map_append, List.mem_append]
      refine ⟨.inl, ?_⟩
      rintro (h | h)
      · exact h
      · rw [List.mem_singleton.1 h]; exact (hmem n).1 hn
    · refine List.Pairwise.imp_of_mem ?_ hord
      intro a b ha hb hab
      rw [hidx a ha, hidx b hb]; exact hab
    · intro j m c hm hcj
      rw [hent]; exact hc j m c hm hcj
  · have h1 := (lookup_zipIdx n ns 0).1 hn
    have hn' : n ∉ h.map Event.name := fun x => hn ((hmem n).2 x)
    have hes : entriesOf h n = [] := by
      unfold entriesOf
      rw [List.filterMap_eq_nil_iff]
      intro e he
      rw [if_neg]
      rintro rfl
      exact hn' (List.mem_map.2 ⟨e, he, rfl⟩)
    have hz : l.byName ++ [(n, l.constraints.length)] = (ns ++ [n]).zipIdx := by
      rw [hbn, hlen, List.zipIdx_append]; simp
    have hnew : ConstraintOK hits (entriesOf h n) ({} : Constraint R) := .inl ⟨hes, rfl⟩
    refine ⟨_, _, by simp [Logger.get, ht, judgeAssert_true, ok_bind, hbn, h1]; exact ⟨rfl, rfl⟩,
      ⟨ns ++ [n], ?_, by rw [← hbn]; exact hz, by simp [hlen], ?_, ?_, ?_⟩,
      ns ++ [n], {}, by rw [← hbn]; exact hz, by rw [hlen]; simp, by simp, hnew⟩
    · rw [List.nodup_append]
      refine ⟨hnd, by simp, ?_⟩
      intro a ha b hb
      rw [List.mem_singleton.1 hb]; rintro rfl; exact hn ha
    · intro m
      simp [hmem m]
    · rw [List.pairwise_append]
      refine ⟨?_, by simp, ?_⟩
      · refine List.Pairwise.imp_of_mem ?_ hord
        intro a b ha hb hab
        rw [hidx a ha, hidx b hb]; exact hab
      · intro a ha b hb
        rw [List.mem_singleton.1 hb, hidx a ha, List.map_append, List.idxOf_append_of_notMem hn']
        have := List.idxOf_lt_length_of_mem ((hmem a).1 ha)
        omega
    · intro j m c hm hcj
      rw [hent]
      by_cases hj : j < ns.length
      · rw [List.getElem?_append_left hj] at hm
        simp only at hcj
        rw [List.getElem?_append_left (by omega)] at hcj
        exact hc j m c hm hcj
      · have hj' : j = ns.length := by
          have := (List.getElem?_eq_some_iff.1 hm).1
          simp at this; omega
        subst hj'
        simp at hm
        simp only at hcj
        rw [← hlen] at hcj
        simp at hcj
        subst hm; subst hcj
        exact hnew

theorem step_spec [LinearOrder R] {o : BoundOps R} {hits : R → R → Prop} (g : GoodOps o hits) {h : List (Event R)}
    {l : Logger R} (hl : Inv hits h l) (e : Event R) :
    (Allowed h e → ∃ l', l.step o e = .ok l' ∧ Inv hits (h ++ [e]) l') ∧
    (¬ Allowed h e → ∃ s, l.step o e = .error s) := by
  by_cases ht : isToken e.name = true
  · obtain ⟨l', i, hg, hi, ns', c, hb', hni, hci, hco⟩ := get_spec hl e.name ht
    obtain ⟨n, x⟩ := e
    cases x with
    | none =>
      refine ⟨fun _ => ⟨l', by simp [Logger.step, hg, ok_bind], hi⟩, fun hn => absurd ⟨ht, by simp⟩ hn⟩
    | some x =>
      have hs : l.step o ⟨n, some x⟩ = (c.log o x >>= fun c => .ok { l' with constraints := l'.constraints.set i c }) := by
        simp only at hg hci
        simp only [Logger.step, hg, ok_bind, hci]
      have hls := log_spec g hco x
      constructor
      · rintro ⟨_, ha⟩
        obtain ⟨c', h1, h2⟩ := hls.1 (ha x rfl)
        refine ⟨_, by rw [hs, h1, ok_bind], ?_⟩
        obtain ⟨ns, hnd, hbn, hlen, hmem, hord, hc⟩ := hi
        have hns : ns' = ns := by
          have := congrArg (List.map Prod.fst) (hb'.symm.trans hbn)
          simpa using this
        subst hns
        refine ⟨ns', hnd, hbn, by simpa using hlen, by simpa using hmem, by simpa using hord, ?_⟩
        intro j m d hm hd
        simp only [List.getElem?_set] at hd
        rw [entriesOf_snoc]
        by_cases hji : i = j
        · subst hji
          rw [hni] at hm
          obtain rfl := Option.some.inj hm
          have hlt : i < l'.constraints.length := (List.getElem?_eq_some_iff.1 hci).1
          simp [hlt] at hd
          subst hd
          simpa using h2
        · rw [if_neg hji] at hd
          have hne : n ≠ m := by
            rintro rfl
            obtain ⟨p1, p2⟩ := List.getElem?_eq_some_iff.1 hni
            obtain ⟨q1, q2⟩ := List.getElem?_eq_some_iff.1 hm
            exact hji ((hnd.getElem_inj_iff (hi := p1) (hj := q1)).1 (p2.trans q2.symm))
          have := hc j m d hm hd
          rw [entriesOf_snoc] at this
          simpa [hne] using this
      · intro hn
        have : ¬ (UpperOK x ∧ ∀ y ∈ entriesOf h n, kind y = kind x) := fun hx =>
          hn ⟨ht, fun z hz => by obtain rfl := Option.some.inj hz; exact hx⟩
        obtain ⟨s, h1⟩ := hls.2 this
        exact ⟨s, by rw [hs, h1, error_bind]⟩
  · refine ⟨fun h => absurd h.1 ht, fun _ => ⟨.throw, ?_⟩⟩
    have : isToken e.name = false := by simpa using ht
    simp [Logger.step, Logger.get, this, judgeAssert_false, error_bind]

theorem token_iff (n : List Char) : isToken n = true ↔ n ≠ [] ∧ ∀ c ∈ n, ¬ White c := by
  rw [C22_isToken]
  have : ∀ c, IsSpace c ↔ White c := fun c => by
    unfold IsSpace White
    constructor
    · intro h
      have hv : c.toNat = 9 ∨ c.toNat = 10 ∨ c.toNat = 11 ∨ c.toNat = 12 ∨ c.toNat = 13 ∨ c.toNat = 32 := by omega
      have key : ∀ d : Char, c.toNat = d.toNat → c = d := fun d hd => Char.toNat_inj.1 hd
      rcases hv with h | h | h | h | h | h
      · exact .inr (.inl (key '\t' h))
      · exact .inr (.inr (.inl (key '\n' h)))
      · exact .inr (.inr (.inr (.inl (key '\x0b' h))))
      · exact .inr (.inr (.inr (.inr (.inl (key '\x0c' h)))))
      · exact .inr (.inr (.inr (.inr (.inr (key '\r' h)))))
      · exact .inl (key ' ' h)
    · rintro (rfl | rfl | rfl | rfl | rfl | rfl) <;> decide
  simp only [this]

theorem proper_snoc (h : List (Event R)) (e : Event R) : Proper (h ++ [e]) ↔ Proper h ∧ Allowed h e := by
  unfold Proper Allowed UpperOK I64
  simp only [token_iff, List.mem_append, List.mem_singleton, entriesOf_snoc]
  constructor
  · rintro ⟨h1, h2, h3⟩
    refine ⟨⟨fun x hx => h1 x (.inl hx), fun x hx => h2 x (.inl hx), fun n x hx y hy => h3 n x (.inl hx) y (.inl hy)⟩,
      h1 e (.inr rfl), fun x hx => ⟨h2 e (.inr rfl) x hx, fun y hy => h3 e.name y (.inl hy) x (.inr (by simp [hx]))⟩⟩
  · rintro ⟨⟨h1, h2, h3⟩, h4, h5⟩
    refine ⟨?_, ?_, ?_⟩
    · rintro x (hx | rfl)
      exacts [h1 x hx, h4]
    · rintro x (hx | rfl)
      exacts [h2 x hx, fun y hy => (h5 y hy).1]
    · intro n x hx y hy
      have key : ∀ z, z ∈ (if e.name = n then e.entry.toList else []) → e.name = n ∧ e.entry = some z := fun z hz => by
        by_cases hn : e.name = n
        · rw [if_pos hn] at hz; exact ⟨hn, by simpa using hz⟩
        · simp [hn] at hz
      rcases hx with hx | hx <;> rcases hy with hy | hy
      · exact h3 n x hx y hy
      · obtain ⟨hn, hy'⟩ := key y hy
        subst hn
        exact (h5 y hy').2 x hx
      · obtain ⟨hn, hx'⟩ := key x hx
        subst hn
        exact ((h5 x hx').2 y hy).symm
      · have h6 := (key x hx).2.symm.trans (key y hy).2
        rw [Option.some.inj h6]

theorem run_spec [LinearOrder R] {o : BoundOps R} {hits : R → R → Prop} (g : GoodOps o hits) (h : List (Event R)) :
    (Proper h → ∃ l, Logger.run o {} h = .ok l ∧ Inv hits h l) ∧ (¬ Proper h → ∃ s, Logger.run o {} h = .error s) := by
  induction h using List.reverseRecOn with
  | nil =>
    refine ⟨fun _ => ⟨{}, rfl, [], by simp⟩, fun hn => absurd ?_ hn⟩
    simp [Proper, entriesOf]
  | append_singleton h e ih =>
    rw [proper_snoc, run_snoc]
    constructor
    · rintro ⟨h1, h2⟩
      obtain ⟨l, hl, hi⟩ := ih.1 h1
      rw [hl, ok_bind]
      exact (step_spec g hi e).1 h2
    · intro hn
      by_cases h1 : Proper h
      · obtain ⟨l, hl, hi⟩ := ih.1 h1
        rw [hl, ok_bind]
        exact (step_spec g hi e).2 (fun h2 => hn ⟨h1, h2⟩)
      · obtain ⟨s, hs⟩ := ih.2 h1
        exact ⟨s, by rw [hs, error_bind]⟩

theorem flag_printBool {p : Prop} {b : Bool} (h : b = true ↔ p) : Flag p (printBool b) := by
  cases b
  · exact .inr ⟨fun hp => by simpa using h.2 hp, rfl⟩
  · exact .inl ⟨h.1 rfl, rfl⟩

theorem columns_print {T : Type} [LinearOrder T] {o : BoundOps T} {hits : T → T → Prop} {es : List (T × T × T)}
    {b : Bounds T} (h : BoundsOK hits es b) : Columns hits o.print es (b.print o) :=
  ⟨_, _, _, _, _, _, rfl, flag_printBool h.hadMin, flag_printBool h.hadMax, h.min, h.max, h.lower, h.upper⟩

theorem line_spec [LinearOrder R] {o : BoundOps R} {hits : R → R → Prop} {h : List (Event R)} {n : List Char}
    {c : Constraint R} (hc : ConstraintOK hits (entriesOf h n) c) :
    (entriesOf h n = [] → c.line o n = none) ∧
    (entriesOf h n ≠ [] → ∃ t, c.line o n = some t ∧ LineFor hits o.print h n t) := by
  rcases hc with ⟨he, ht⟩ | ⟨hne, hty, hb⟩
  · exact ⟨fun _ => by simp [Constraint.line, ht], fun hn => absurd he hn⟩
  · refine ⟨fun hn => absurd hn hne, fun _ => ?_⟩
    obtain ⟨y, hy⟩ := List.exists_mem_of_ne_nil _ hne
    rcases hb with ⟨b, hb, _, h2, h3⟩ | ⟨b, hb, _, h2, h3⟩
    · refine ⟨_, by simp only [Constraint.line, hty y hy, Option.isSome_some, if_true, hb], b.print intBoundOps, rfl,
        .inl ⟨h2, ?_⟩⟩
      have hp : intBoundOps.print = decimal := funext printInt_eq
      rw [← hp]
      exact columns_print h3
    · exact ⟨_, by simp only [Constraint.line, hty y hy, Option.isSome_some, if_true, hb], b.print o, rfl,
        .inr ⟨h2, columns_print h3⟩⟩

theorem lines_spec [LinearOrder R] {o : BoundOps R} {hits : R → R → Prop} {h : List (Event R)} :
    ∀ (ns : List (List Char)) (cs : List (Constraint R)), cs.length = ns.length →
    (∀ (i : Nat) n c, ns[i]? = some n → cs[i]? = some c → ConstraintOK hits (entriesOf h n) c) →
    List.Forall₂ (LineFor hits o.print h) (ns.filter fun n => !(entriesOf h n).isEmpty)
      ((ns.zip cs).filterMap fun p => p.2.line o p.1) := by
  intro ns
  induction ns with
  | nil => intro cs _ _; simp
  | cons n ns ih =>
    intro cs hlen hc
    cases cs with
    | nil => simp at hlen
    | cons c cs =>
      have hr := ih cs (by simpa using hlen) (fun i m d hm hd => hc (i + 1) m d (by simpa using hm) (by simpa using hd))
      have hl := line_spec (o := o) (hc 0 n c (by simp) (by simp))
      simp only [List.zip_cons_cons, List.filterMap_cons]
      by_cases he : entriesOf h n = []
      · rw [hl.1 he]; simpa [he] using hr
      · obtain ⟨t, ht, hlf⟩ := hl.2 he
        rw [ht, List.filter_cons_of_pos (by simpa using he)]
        exact List.Forall₂.cons hlf hr

/-- **C38.** After any history of correct calls the log has exactly one line for each name under which something was
logged, in order of the first use of the names, with the smallest and largest observed value, the smallest lower and
the largest upper bound, and with flags that tell whether a value was equal to the lower (upper) bound it was logged
with.  Sizes of containers count as integers, half open integer ranges are logged as closed ones. -/
theorem C38_log [LinearOrder R] (o : BoundOps R) (hits : R → R → Prop) (g : GoodOps o hits) (h : List (Event R))
    (hp : Proper h) :
    ∃ l, Logger.run o {} h = .ok l ∧ ∃ ns : List (List Char), ns.Nodup ∧
      (∀ n, n ∈ ns ↔ entriesOf h n ≠ []) ∧
      ns.Pairwise (fun a b => (h.map Event.name).idxOf a < (h.map Event.name).idxOf b) ∧
      List.Forall₂ (LineFor hits o.print h) ns (l.lines o) := by
  obtain ⟨l, hl, ns, hnd, hbn, hlen, hmem, hord, hc⟩ := (run_spec g h).1 hp
  refine ⟨l, hl, ns.filter fun n => !(entriesOf h n).isEmpty, hnd.filter _, ?_, hord.filter _, ?_⟩
  · intro n
    simp only [List.mem_filter, Bool.not_eq_true', List.isEmpty_eq_false_iff]
    refine ⟨fun hx => hx.2, fun hx => ⟨(hmem n).2 ?_, hx⟩⟩
    obtain ⟨x, hx⟩ := List.exists_mem_of_ne_nil _ hx
    obtain ⟨e, he, hex⟩ := List.mem_filterMap.1 hx
    by_cases hn : e.name = n
    · exact List.mem_map.2 ⟨e, he, hn⟩
    · simp [hn] at hex
  · have hnames : l.names = ns := by
      have := names_zipIdx ns []
      simp only [List.length_nil, List.nil_append] at this
      unfold Logger.names
      rw [hbn, List.length_zipIdx]
      exact this
    unfold Logger.lines
    rw [hnames]
    exact lines_spec ns l.constraints hlen hc

/-- **C38**, misuse: if a name is not a token, the type of a name changes or an upper bound cannot be decremented, the
calls do not succeed. -/
theorem C38_misuse [LinearOrder R] (o : BoundOps R) (hits : R → R → Prop) (g : GoodOps o hits) (h : List (Event R))
    (hp : ¬ Proper h) : ∃ s, Logger.run o {} h = .error s :=
  (run_spec g h).2 hp

/-- Operations for histories without real numbers. -/
def unitOps : BoundOps Unit := { hits := fun _ _ => true, lt := fun _ _ => false, print := fun _ => [] }

example : GoodOps unitOps (fun _ _ => True) := ⟨by simp [unitOps], by simp [unitOps]⟩

/-- The lines for a history. -/
def demoLines (h : List (Event Unit)) : Option (List String) :=
  match Logger.run unitOps {} h with
  | .ok l => some ((l.lines unitOps).map String.ofList)
  | .error _ => none

/-- Two names, one of them only mentioned, different bounds; `n` attains its smallest lower bound only once. -/
example : demoLines [⟨"n".toList, some (.int 1 11 5)⟩, ⟨"unused".toList, none⟩, ⟨"s".toList, some (.container 0 1 4 3)⟩,
    ⟨"n".toList, some (.int 0 8 7)⟩, ⟨"n".toList, some (.int (-3) 8 (-3))⟩] =
    some ["LocationNotSupported:n n 1 1 -3 7 -3 10", "LocationNotSupported:s s 0 1 3 3 1 3"] := by decide +kernel

/-- The flag concerns the bound given with the value: 0 was never read here. -/
example : demoLines [⟨"n".toList, some (.int 0 10 5)⟩, ⟨"n".toList, some (.int 3 10 3)⟩] =
    some ["LocationNotSupported:n n 1 0 3 5 0 9"] := by decide +kernel

/-- A change of the type. -/
example : demoLines [⟨"n".toList, some (.int 0 10 5)⟩, ⟨"n".toList, some (.container 0 0 10 3)⟩] = none := by decide +kernel

end ICPC.Props
