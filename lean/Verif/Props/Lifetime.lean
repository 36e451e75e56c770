import Verif.Spec.Lifetime
import Verif.Props.Png
import Verif.Props.VisualizerExample

/-!
# C107: images are written to their files
-/

namespace ICPC.Props

open ICPC ICPC.Life Spec Spec.SvgFormat

variable {P B : Type} {c : Class P B}

private theorem through {α β : Type} {x : Out α} {f : α → Out β} {y : β} (h : (x >>= f) = .ok y) : ∃ a, x = .ok a ∧ f a = .ok y := by
  cases x with
  | error e => cases h
  | ok a => exact ⟨a, rfl, h⟩

private theorem get_ok {w : World P B} {x : Nat} {o : Img P} (h : w.get x = .ok o) : w.obj x = some o := by
  unfold World.get at h
  split at h
  · rename_i o' h'
    rw [h', Except.ok.inj h]
  · cases h

private theorem get_some {w : World P B} {x : Nat} {o : Img P} (h : w.obj x = some o) : w.get x = .ok o := by
  unfold World.get
  rw [h]

/-- What `write` changes: nothing but one file. -/
private theorem save_ok {im : Img P} {w w' : World P B} (h : save c im w = .ok w') :
    w'.obj = w.obj ∧ w'.canWrite = w.canWrite ∧ (∀ q, im.fileName ≠ some q → w'.files q = w.files q) ∧
    (∀ p, im.fileName = some p → c.isEmpty im.pic = true → w' = w) ∧
    (∀ p, im.fileName = some p → c.isEmpty im.pic = false → w.canWrite p = true → ∃ t, c.encode im.pic = .ok t ∧ w'.files p = some t) := by
  unfold save at h
  split at h
  · rename_i hn
    obtain rfl := Except.ok.inj h
    exact ⟨rfl, rfl, fun _ _ => rfl, fun p hp => (by rw [hn] at hp; cases hp), fun p hp => (by rw [hn] at hp; cases hp)⟩
  · rename_i p hn
    split at h
    · rename_i he
      obtain rfl := Except.ok.inj h
      exact ⟨rfl, rfl, fun _ _ => rfl, fun _ _ _ => rfl, fun p hp h1 => (by rw [he] at h1; cases h1)⟩
    · rename_i he
      obtain ⟨t, ht, h⟩ := through h
      split at h
      · obtain rfl := Except.ok.inj h
        refine ⟨rfl, rfl, fun q hq => ?_, fun p _ h1 => absurd h1 he, fun p' hp _ _ => ⟨t, ht, ?_⟩⟩
        · simp only [World.setFile]
          rw [if_neg]
          rintro rfl
          exact hq hn
        · rw [hn] at hp
          obtain rfl := Option.some.inj hp
          simp [World.setFile]
      · rename_i hw
        obtain rfl := Except.ok.inj h
        refine ⟨rfl, rfl, fun _ _ => rfl, fun p _ h1 => absurd h1 he, fun p' hp _ h1 => ?_⟩
        rw [hn] at hp
        obtain rfl := Option.some.inj hp
        exact absurd h1 hw

/-- **C107, the destructor.** When an object with a file name is destroyed and its picture is not empty, its file contains that picture (if it can be
written), and no other file and no other object changes. -/
theorem C107_destroyed (c : Class P B) (w w' : World P B) (x : Nat) (p : Life.Path) (pic : P) (ho : w.obj x = some ⟨some p, pic⟩)
    (he : c.isEmpty pic = false) (hw : w.canWrite p = true) (h : exec c w (.drop x) = .ok w') :
    (∃ t, c.encode pic = .ok t ∧ w'.files p = some t) ∧ (∀ q, q ≠ p → w'.files q = w.files q) ∧ w'.obj x = none ∧ ∀ y, y ≠ x → w'.obj y = w.obj y := by
  rw [exec] at h
  rw [get_some ho, ok_bind] at h
  obtain ⟨w1, h1, h⟩ := through h
  obtain rfl := Except.ok.inj h
  obtain ⟨a1, -, a3, -, a5⟩ := save_ok h1
  refine ⟨a5 p rfl he hw, fun q hq => a3 q (by simpa using fun e => hq e.symm), by simp [World.setObj], fun y hy => ?_⟩
  simp only [World.setObj, if_neg hy]
  rw [a1]

/-- **C107, refuted for empty pictures** (no rows, rows without pixels, nothing written to an SVG): no file is written, and if there is an old
one it remains as it is. -/
theorem C107_empty_refuted (c : Class P B) (w : World P B) (x : Nat) (name : Option Life.Path) (pic : P) (ho : w.obj x = some ⟨name, pic⟩)
    (he : c.isEmpty pic = true) : ∃ w', exec c w (.drop x) = .ok w' ∧ w'.files = w.files := by
  refine ⟨w.setObj x none, ?_, rfl⟩
  rw [exec]
  rw [get_some ho, ok_bind]
  unfold save
  cases name with
  | none => rfl
  | some p =>
    simp only [he, if_true, ok_bind]

/-- **C107, moving.** After `x = std::move(y)` the object `x` has the file and the picture of `y`, and no file has changed: what `x` showed before is
not written anywhere. Destroying `y` changes no file if the old picture of `x` was empty. -/
theorem C107_move (c : Class P B) (hb : c.isEmpty c.blank = true) (w : World P B) (x y : Nat) (hxy : x ≠ y) (a b : Img P) (ha : w.obj x = some a)
    (hy : w.obj y = some b) (junk : Life.Path) (swap : Bool) :
    ∃ w', exec c w (.move x y junk swap) = .ok w' ∧ w'.obj x = some b ∧ w'.files = w.files ∧
      (c.isEmpty a.pic = true → ∃ w'', exec c w' (.drop y) = .ok w'' ∧ w''.files = w.files ∧ w''.canWrite = w.canWrite ∧ w''.obj x = some b ∧
        ∀ z, z ≠ x → z ≠ y → w''.obj z = w.obj z) := by
  let w1 := (w.setObj x (some b)).setObj y (some ⟨b.fileName.map fun _ => junk, if swap then a.pic else c.blank⟩)
  have h1 : exec c w (.move x y junk swap) = .ok w1 := by
    rw [exec, get_some ha, ok_bind, get_some hy, ok_bind, if_neg hxy]
  refine ⟨w1, h1, by simp [w1, World.setObj, hxy], rfl, fun he => ?_⟩
  have hempty : c.isEmpty (if swap = true then a.pic else c.blank) = true := by cases swap <;> simpa
  have h2 : exec c w1 (.drop y) = .ok (w1.setObj y none) := by
    rw [exec, get_some (o := ⟨b.fileName.map fun _ => junk, if swap then a.pic else c.blank⟩) (by simp [w1, World.setObj]), ok_bind]
    unfold save
    cases b.fileName with
    | none => rfl
    | some p => simp only [Option.map_some, hempty, if_true]; rfl
  exact ⟨_, h2, rfl, rfl, by simp [w1, World.setObj, hxy], fun z h1 h2 => by simp [w1, World.setObj, h1, h2]⟩

/-! ### Programs -/

/-- `image` has the file `p` and the picture `q`, and no other object has that file. -/
private structure Owner (w : World P B) (p : Life.Path) (q : P) : Prop where
  here : w.obj 0 = some ⟨some p, q⟩
  only : ∀ x o, x ≠ 0 → w.obj x = some o → o.fileName ≠ some p

private theorem Owner.put {w : World P B} {p : Life.Path} {q : P} (h : Owner w p q) {x : Nat} (hx : x ≠ 0) (o : Option (Img P))
    (ho : ∀ o' ∈ o, o'.fileName ≠ some p) : Owner (w.setObj x o) p q := by
  refine ⟨by simp only [World.setObj]; rw [if_neg (by omega)]; exact h.here, fun y o' hy h' => ?_⟩
  simp only [World.setObj] at h'
  split at h'
  · exact ho o' h'
  · exact h.only y o' hy h'

private theorem owner_saved {w w' : World P B} {p : Life.Path} {q : P} (h : Owner w p q) (e : w'.obj = w.obj) : Owner w' p q :=
  ⟨by rw [e]; exact h.here, fun x o hx ho => h.only x o hx (by rw [← e]; exact ho)⟩

/-- One action of the body. -/
private theorem step_ok {w w' : World P B} {p : Life.Path} {q : P} (h : Owner w p q) {a : Act P} (ht : Tidy p a) (he : exec c w a = .ok w') :
    ∃ q', drawn [a] q = .ok q' ∧ Owner w' p q' ∧ w'.canWrite = w.canWrite ∧ ((∀ x, a ≠ .write x) → w'.files p = w.files p) ∧
      (a = .write 0 ∨ w'.files p = w.files p) := by
  cases a with
  | make x name =>
    rw [exec] at he
    split at he
    · cases he
    · obtain rfl := Except.ok.inj he
      exact ⟨q, rfl, h.put ht.1 _ (by rintro o' ⟨⟩; exact ht.2), rfl, fun _ => rfl, .inr rfl⟩
  | copy x y =>
    rw [exec] at he
    obtain ⟨o, ho, he⟩ := through he
    split at he
    · cases he
    · obtain rfl := Except.ok.inj he
      exact ⟨q, rfl, h.put ht.1 _ (by rintro o' ⟨⟩; exact h.only y o ht.2 (get_ok ho)), rfl, fun _ => rfl, .inr rfl⟩
  | assign x y =>
    rw [exec] at he
    obtain ⟨o1, ho1, he⟩ := through he
    obtain ⟨o, ho, he⟩ := through he
    obtain rfl := Except.ok.inj he
    exact ⟨q, rfl, h.put ht.1 _ (by rintro o' ⟨⟩; exact h.only y o ht.2 (get_ok ho)), rfl, fun _ => rfl, .inr rfl⟩
  | move x y junk swap =>
    rw [exec] at he
    obtain ⟨o1, ho1, he⟩ := through he
    obtain ⟨o, ho, he⟩ := through he
    split at he
    · cases he
    · obtain rfl := Except.ok.inj he
      refine ⟨q, rfl, (h.put ht.1 _ (by rintro o' ⟨⟩; exact h.only y o ht.2.1 (get_ok ho))).put ht.2.1 _ ?_, rfl, fun _ => rfl, .inr rfl⟩
      rintro o' ⟨⟩
      cases o.fileName with
      | none => simp
      | some n => simpa using ht.2.2
  | edit x f =>
    rw [exec] at he
    obtain ⟨o, ho, he⟩ := through he
    obtain ⟨r, hr, he⟩ := through he
    obtain rfl := Except.ok.inj he
    have hx := get_ok ho
    by_cases h0 : x = 0
    · subst h0
      rw [h.here] at hx
      obtain rfl := Option.some.inj hx
      refine ⟨r, by simp only [drawn, if_true]; rw [hr]; rfl, ⟨by simp [World.setObj], fun y o' hy h' => ?_⟩, rfl, fun _ => rfl, .inr rfl⟩
      simp only [World.setObj, if_neg hy] at h'
      exact h.only y o' hy h'
    · refine ⟨q, by simp [drawn, h0], h.put h0 _ ?_, rfl, fun _ => rfl, .inr rfl⟩
      rintro o' ⟨⟩
      exact h.only x o h0 hx
  | write x =>
    rw [exec] at he
    obtain ⟨o, ho, he⟩ := through he
    obtain ⟨a1, a2, a3, -⟩ := save_ok he
    refine ⟨q, rfl, owner_saved h a1, a2, fun hne => absurd rfl (hne x), ?_⟩
    by_cases h0 : x = 0
    · subst h0
      exact .inl rfl
    · exact .inr (a3 p (h.only x o h0 (get_ok ho)))
  | drop x =>
    rw [exec] at he
    obtain ⟨o, ho, he⟩ := through he
    obtain ⟨w1, h1, he⟩ := through he
    obtain rfl := Except.ok.inj he
    obtain ⟨a1, a2, a3, -⟩ := save_ok h1
    have hf := a3 p (h.only x o ht (get_ok ho))
    exact ⟨q, rfl, (owner_saved h a1).put ht none (by simp), a2, fun _ => hf, .inr hf⟩

private theorem drawn_cons (a : Act P) (l : List (Act P)) (q : P) : drawn (a :: l) q = drawn [a] q >>= drawn l := by
  cases a with
  | edit x f =>
    simp only [drawn]
    split
    · cases f q <;> rfl
    · rfl
  | _ => rfl

/-- The body of a program. -/
private theorem run_ok (p : Life.Path) : ∀ (acts : List (Act P)) (w w' : World P B) (q : P), Owner w p q → (∀ a ∈ acts, Tidy p a) → run c acts w = .ok w' →
    ∃ q', drawn acts q = .ok q' ∧ Owner w' p q' ∧ w'.canWrite = w.canWrite ∧ (Act.write 0 ∉ acts → w'.files p = w.files p) := by
  intro acts
  induction acts with
  | nil =>
    intro w w' q h _ hr
    obtain rfl := Except.ok.inj hr
    exact ⟨q, rfl, h, rfl, fun _ => rfl⟩
  | cons a l ih =>
    intro w w' q h ht hr
    rw [run] at hr
    obtain ⟨w1, h1, hr⟩ := through hr
    obtain ⟨q1, a1, a2, a3, -, a5⟩ := step_ok h (ht a (by simp)) h1
    obtain ⟨q', b1, b2, b3, b4⟩ := ih w1 w' q1 a2 (fun b hb => ht b (List.mem_cons_of_mem _ hb)) hr
    refine ⟨q', by rw [drawn_cons, a1, ok_bind, b1], b2, by rw [b3, a3], fun hn => ?_⟩
    rw [b4 (fun hm => hn (List.mem_cons_of_mem _ hm))]
    rcases a5 with rfl | a5
    · exact absurd (List.mem_cons_self ..) hn
    · exact a5

/-- Files whose names do not occur do not change. -/
private theorem frame_step (q : Life.Path) {w w' : World P B} (hq : ∀ x o, w.obj x = some o → o.fileName ≠ some q) {a : Act P} (ha : q ∉ named a)
    (he : exec c w a = .ok w') : w'.files q = w.files q ∧ ∀ x o, w'.obj x = some o → o.fileName ≠ some q := by
  have hput : ∀ {w : World P B} (x : Nat) (o : Option (Img P)), (∀ x o, w.obj x = some o → o.fileName ≠ some q) → (∀ o' ∈ o, o'.fileName ≠ some q) →
      ∀ y o', (w.setObj x o).obj y = some o' → o'.fileName ≠ some q := by
    intro w x o h ho y o' h'
    simp only [World.setObj] at h'
    split at h'
    · exact ho o' h'
    · exact h y o' h'
  cases a with
  | make x name =>
    rw [exec] at he
    split at he
    · cases he
    · obtain rfl := Except.ok.inj he
      refine ⟨rfl, hput x _ hq ?_⟩
      rintro o' ⟨⟩
      cases name with
      | none => simp
      | some n => simpa [named, eq_comm] using ha
  | copy x y =>
    rw [exec] at he
    obtain ⟨o, ho, he⟩ := through he
    split at he
    · cases he
    · obtain rfl := Except.ok.inj he
      exact ⟨rfl, hput x _ hq (by rintro o' ⟨⟩; exact hq y o (get_ok ho))⟩
  | assign x y =>
    rw [exec] at he
    obtain ⟨o1, ho1, he⟩ := through he
    obtain ⟨o, ho, he⟩ := through he
    obtain rfl := Except.ok.inj he
    exact ⟨rfl, hput x _ hq (by rintro o' ⟨⟩; exact hq y o (get_ok ho))⟩
  | move x y junk swap =>
    rw [exec] at he
    obtain ⟨o1, ho1, he⟩ := through he
    obtain ⟨o, ho, he⟩ := through he
    split at he
    · cases he
    · obtain rfl := Except.ok.inj he
      refine ⟨rfl, hput y _ (hput x _ hq (by rintro o' ⟨⟩; exact hq y o (get_ok ho))) ?_⟩
      rintro o' ⟨⟩
      cases o.fileName with
      | none => simp
      | some n => simpa [named, eq_comm] using ha
  | edit x f =>
    rw [exec] at he
    obtain ⟨o, ho, he⟩ := through he
    obtain ⟨r, hr, he⟩ := through he
    obtain rfl := Except.ok.inj he
    exact ⟨rfl, hput x _ hq (by rintro o' ⟨⟩; exact hq x o (get_ok ho))⟩
  | write x =>
    rw [exec] at he
    obtain ⟨o, ho, he⟩ := through he
    obtain ⟨a1, a2, a3, -⟩ := save_ok he
    exact ⟨a3 q (hq x o (get_ok ho)), by rw [a1]; exact hq⟩
  | drop x =>
    rw [exec] at he
    obtain ⟨o, ho, he⟩ := through he
    obtain ⟨w1, h1, he⟩ := through he
    obtain rfl := Except.ok.inj he
    obtain ⟨a1, a2, a3, -⟩ := save_ok h1
    exact ⟨a3 q (hq x o (get_ok ho)), hput x none (by rw [a1]; exact hq) (by simp)⟩

private theorem frame (q : Life.Path) : ∀ (acts : List (Act P)) (w w' : World P B), (∀ x o, w.obj x = some o → o.fileName ≠ some q) →
    (∀ a ∈ acts, q ∉ named a) → run c acts w = .ok w' → w'.files q = w.files q ∧ ∀ x o, w'.obj x = some o → o.fileName ≠ some q := by
  intro acts
  induction acts with
  | nil =>
    intro w w' h _ hr
    obtain rfl := Except.ok.inj hr
    exact ⟨rfl, h⟩
  | cons a l ih =>
    intro w w' h ha hr
    rw [run] at hr
    obtain ⟨w1, h1, hr⟩ := through hr
    obtain ⟨a1, a2⟩ := frame_step q h (ha a (by simp)) h1
    obtain ⟨b1, b2⟩ := ih w1 w' a2 (fun b hb => ha b (List.mem_cons_of_mem _ hb)) hr
    exact ⟨b1.trans a1, b2⟩

/-- `init`: `image` gets its file, nothing is written. -/
private theorem init_ok (c : Class P B) (hb : c.isEmpty c.blank = true) (p junk : Life.Path) (swap : Bool) (w : World P B) (h0 : ∀ x, w.obj x = none) :
    ∃ w1 w2, exec c w (.make 0 none) = .ok w1 ∧ run c (initActs p junk swap) w1 = .ok w2 ∧ w2.files = w.files ∧ w2.canWrite = w.canWrite ∧
      w2.obj 0 = some ⟨some p, c.blank⟩ ∧ ∀ x, x ≠ 0 → w2.obj x = none := by
  let wa := w.setObj 0 (some ⟨none, c.blank⟩)
  let wb := wa.setObj 1 (some ⟨some p, c.blank⟩)
  have ha : exec c w (.make 0 none) = .ok wa := by
    rw [exec]
    rw [h0]
    rfl
  have hb1 : exec c wa (.make 1 (some p)) = .ok wb := by
    rw [exec]
    rw [show wa.obj 1 = none by simp [wa, World.setObj, h0]]
    rfl
  obtain ⟨wc, e1, -, -, e4⟩ := C107_move c hb wb 0 1 (by omega) ⟨none, c.blank⟩ ⟨some p, c.blank⟩ (by simp [wb, wa, World.setObj])
    (by simp [wb, World.setObj]) junk swap
  obtain ⟨wd, f1, f2, f3, f4, f5⟩ := e4 hb
  refine ⟨wa, wd, ha, ?_, f2, f3, f4, fun x hx => ?_⟩
  · rw [initActs, run]
    rw [hb1, ok_bind]
    rw [run]
    rw [e1, ok_bind]
    rw [run]
    rw [f1, ok_bind]
    rfl
  · by_cases h1 : x = 1
    · subst h1
      rw [exec] at f1
      obtain ⟨o, ho, f1⟩ := through f1
      obtain ⟨w', h', f1⟩ := through f1
      obtain rfl := Except.ok.inj f1
      simp [World.setObj]
    · rw [f5 x hx h1]
      simp [wb, wa, World.setObj, hx, h1, h0]

/-- **C107, visualizers.** Let the program get a name, use `image` for drawing and writing only, and use other files for other images. If it ends normally,
the file `name` with the extension contains exactly what was drawn to `image` (if that is not empty and the file can be written; if it is
empty and `write` was not called, the file is as before), whatever moved objects contain. No other file changes, except those of other
images. -/
theorem C107_visualizer (c : Class P B) (hb : c.isEmpty c.blank = true) (ext : String) (argv : List Life.Path) (name : Life.Path) (hname : argv[1]? = some name)
    (junk : Life.Path) (swap : Bool) (body : Option (List B) → Option (List B) → List (Act P)) (w w' : World P B) (h0 : ∀ x, w.obj x = none)
    (hrun : visualizer c ext argv junk swap body w = .ok w') :
    let acts := body (w.files (name ++ ".in".toList)) (w.files (name ++ ".ans".toList))
    let p := name ++ ext.toList
    ((∀ a ∈ acts, Tidy p a) → ∃ pic, drawn acts c.blank = .ok pic ∧
      (c.isEmpty pic = false → w.canWrite p = true → ∃ t, c.encode pic = .ok t ∧ w'.files p = some t) ∧
      (c.isEmpty pic = true → Act.write 0 ∉ acts → w'.files p = w.files p)) ∧
    ∀ q, q ≠ p → (∀ a ∈ acts, q ∉ named a) → w'.files q = w.files q := by
  intro acts p
  obtain ⟨w1, w2, e1, e2, e3, e4, e5, e6⟩ := init_ok c hb p junk swap w h0
  unfold visualizer at hrun
  rw [e1, ok_bind, hname] at hrun
  simp only at hrun
  rw [e2, ok_bind, e3] at hrun
  obtain ⟨w3, e7, hdrop⟩ := through hrun
  change run c acts w2 = .ok w3 at e7
  constructor
  · intro ht
    have ho : Owner w2 p c.blank := ⟨e5, fun x o hx h => by rw [e6 x hx] at h; cases h⟩
    obtain ⟨pic, a1, a2, a3, a4⟩ := run_ok p acts w2 w3 c.blank ho ht e7
    refine ⟨pic, a1, fun he hw => ?_, fun he hn => ?_⟩
    · exact (C107_destroyed c w3 w' 0 p pic a2.here he (by rw [a3, e4]; exact hw) hdrop).1
    · obtain ⟨w'', h1, h2⟩ := C107_empty_refuted c w3 0 (some p) pic a2.here he
      rw [hdrop] at h1
      obtain rfl := Except.ok.inj h1
      rw [h2, a4 hn, e3]
  · intro q hq ha
    have hn : ∀ x o, w2.obj x = some o → o.fileName ≠ some q := by
      intro x o h
      by_cases hx : x = 0
      · subst hx
        rw [e5] at h
        obtain rfl := Option.some.inj h
        simpa using fun e => hq e.symm
      · rw [e6 x hx] at h
        cases h
    obtain ⟨b1, b2⟩ := frame q acts w2 w3 hn ha e7
    rw [(frame_step q b2 (by simp [named]) hdrop).1, b1, e3]

/-- Without a name nothing happens. -/
theorem C107_no_name (c : Class P B) (ext : String) (argv : List Life.Path) (h : argv[1]? = none) (junk : Life.Path) (swap : Bool)
    (body : Option (List B) → Option (List B) → List (Act P)) (w : World P B) (h0 : ∀ x, w.obj x = none) :
    visualizer c ext argv junk swap body w = .error .throw := by
  unfold visualizer
  rw [exec]
  rw [h0, h]
  rfl

/-- Several drawings. -/
private theorem edits_ok (c : Class P B) (p : Life.Path) (pic : P) : ∀ (fs : List (P → Out P)) (w : World P B) (q : P), w.obj 0 = some ⟨some p, q⟩ →
    drawn (fs.map (Act.edit 0)) q = .ok pic →
    ∃ w', run c (fs.map (Act.edit 0)) w = .ok w' ∧ w'.obj 0 = some ⟨some p, pic⟩ ∧ w'.canWrite = w.canWrite := by
  intro fs
  induction fs with
  | nil =>
    intro w q h hd
    obtain rfl := Except.ok.inj hd
    exact ⟨w, rfl, h, rfl⟩
  | cons f fs ih =>
    intro w q h hd
    simp only [List.map_cons, drawn, if_true] at hd
    obtain ⟨r, hr, hd⟩ := through hd
    have h3 : exec c w (.edit 0 f) = .ok (w.setObj 0 (some ⟨some p, r⟩)) := by
      rw [exec, get_some h, ok_bind, hr, ok_bind]
    obtain ⟨w', a1, a2, a3⟩ := ih (w.setObj 0 (some ⟨some p, r⟩)) r (by simp [World.setObj]) hd
    exact ⟨w', by rw [List.map_cons, run, h3, ok_bind, a1], a2, a3⟩

/-- A program that only draws ends if the drawing does and the picture can be written. -/
private theorem draw_only (c : Class P B) (hb : c.isEmpty c.blank = true) (ext : String) (argv : List Life.Path) (name : Life.Path) (hname : argv[1]? = some name)
    (junk : Life.Path) (swap : Bool) (draw : Option (List B) → Option (List B) → List (P → Out P)) (w : World P B) (h0 : ∀ x, w.obj x = none) (pic : P)
    (t : List B) (hd : drawn ((draw (w.files (name ++ ".in".toList)) (w.files (name ++ ".ans".toList))).map (Act.edit 0)) c.blank = .ok pic)
    (hne : c.isEmpty pic = false) (he : c.encode pic = .ok t) (hw : w.canWrite (name ++ ext.toList) = true) :
    ∃ w', visualizer c ext argv junk swap (fun i o => (draw i o).map (Act.edit 0)) w = .ok w' ∧ w'.files (name ++ ext.toList) = some t ∧
      ∀ q, q ≠ name ++ ext.toList → w'.files q = w.files q := by
  obtain ⟨w1, w2, e1, e2, e3, e4, e5, e6⟩ := init_ok c hb (name ++ ext.toList) junk swap w h0
  have hex : ∃ w', visualizer c ext argv junk swap (fun i o => (draw i o).map (Act.edit 0)) w = .ok w' := by
    unfold visualizer
    rw [e1, ok_bind, hname]
    simp only
    rw [e2, ok_bind, e3]
    obtain ⟨w3, f1, f2, f3⟩ := edits_ok c _ pic _ w2 c.blank e5 hd
    rw [f1, ok_bind, exec, get_some f2, ok_bind]
    unfold save
    simp only
    rw [if_neg (by rw [hne]; simp), he, ok_bind, if_pos (by rw [f3, e4]; exact hw), ok_bind]
    exact ⟨_, rfl⟩
  obtain ⟨w', hr⟩ := hex
  obtain ⟨a1, a2⟩ := C107_visualizer c hb ext argv name hname junk swap _ w w' h0 hr
  obtain ⟨pic', b1, b2, -⟩ := a1 (by
    intro a ha
    obtain ⟨f, -, rfl⟩ := List.mem_map.1 ha
    trivial)
  rw [hd] at b1
  obtain rfl := Except.ok.inj b1
  obtain ⟨t', c1, c2⟩ := b2 hne hw
  rw [he] at c1
  obtain rfl := Except.ok.inj c1
  refine ⟨w', hr, c2, fun q hq => a2 q hq fun a ha => ?_⟩
  obtain ⟨f, -, rfl⟩ := List.mem_map.1 ha
  simp [named]

/-- **C107, PNG.** A visualizer that draws a picture of at most 16383 columns leaves a file `name.png` that the reader of `Spec/Png` decodes to the
picture (row 0 at the bottom), if the data fit into one chunk; no other file changes. -/
theorem C107_png_partial (argv : List Life.Path) (name : Life.Path) (hname : argv[1]? = some name) (junk : Life.Path) (swap : Bool)
    (draw : Option (List Png.Byte) → Option (List Png.Byte) → Png.Image → Out Png.Image) (w : World Png.Image Png.Byte) (h0 : ∀ x, w.obj x = none)
    (pic : Png.Image) (hd : draw (w.files (name ++ ".in".toList)) (w.files (name ++ ".ans".toList)) [] = .ok pic) (cols rows : Nat)
    (hr : Spec.PngFormat.Rect cols rows pic) (hc : 0 < cols ∧ cols ≤ 16383) (hh : 0 < rows) (hsize : 6 + rows * (4 * cols + 6) < 2 ^ 31)
    (hw : w.canWrite (name ++ ".png".toList) = true) :
    ∃ w' bytes, visualizer png ".png" argv junk swap (fun i o => [.edit 0 (draw i o)]) w = .ok w' ∧ w'.files (name ++ ".png".toList) = some bytes ∧
      Spec.PngFormat.decode bytes = some pic.reverse ∧ ∀ q, q ≠ name ++ ".png".toList → w'.files q = w.files q := by
  obtain ⟨bytes, b1, b2⟩ := C61_roundtrip_partial { fileName := some "x", colors := pic } "x" rfl cols rows hr hc hh hsize
  have hwidth : Png.width pic ≠ 0 := by
    intro h
    unfold Png.PNG.write at b1
    simp only [h, if_true] at b1
    cases b1
  have henc : png.encode pic = .ok bytes := by
    unfold Png.PNG.write at b1
    simp only [if_neg hwidth] at b1
    obtain ⟨v, v1, v2⟩ := through b1
    show (Png.Writer.write {} pic >>= fun w => pure w.out) = .ok bytes
    rw [v1, ok_bind]
    have := Except.ok.inj v2
    rw [Option.some.injEq, Prod.mk.injEq] at this
    rw [this.2]
    rfl
  obtain ⟨w', e1, e2, e3⟩ := draw_only png (by simp [png, Png.width]) ".png" argv name hname junk swap (fun i o => [draw i o]) w h0 pic bytes
    (by simp only [List.map_cons, List.map_nil, drawn, if_true]; rw [show png.blank = [] from rfl, hd]; rfl)
    (by simpa [png] using hwidth) henc hw
  exact ⟨w', bytes, e1, e2, b2, e3⟩

/-- **C107, SVG.** A visualizer that writes shapes, comments and texts as in C79 to `image` leaves a file `name.svg` that the XML reader reads as the
document with these items, in order; no other file changes. -/
theorem C107_svg (num toString : Rat → List Char) (hn : Notation num) (ht : Notation toString) (argv : List Life.Path) (name : Life.Path)
    (hname : argv[1]? = some name) (junk : Life.Path) (swap : Bool) (draw : Option (List Char) → Option (List Char) → SvgPic → Out SvgPic)
    (w : World SvgPic Char) (h0 : ∀ x, w.obj x = none) (s : SvgPic)
    (hd : draw (w.files (name ++ ".in".toList)) (w.files (name ++ ".ans".toList)) {} = .ok s) (hall : ∀ it ∈ s.items, Allowed it)
    (hne : ∃ it ∈ s.items, it ≠ .text []) (hw : w.canWrite (name ++ ".svg".toList) = true) :
    ∃ w' text content, visualizer (svg num toString) ".svg" argv junk swap (fun i o => [.edit 0 (draw i o)]) w = .ok w' ∧
      w'.files (name ++ ".svg".toList) = some text ∧
      Spec.Xml.read text = some (.element "svg".toList
        (rootAttributes toString (enlarged (Svg.Box.drawAll (shapes s.items)).viewBox s.shift s.grow)) content) ∧
      Spec.Xml.markup content = s.items.filterMap (node num) ∧ ∀ q, q ≠ name ++ ".svg".toList → w'.files q = w.files q := by
  cases hf : Svg.file num toString s.items s.shift s.grow with
  | none =>
    obtain ⟨it, h1, h2⟩ := hne
    exact absurd ((C79_empty num toString s.items s.shift s.grow).1 hf it h1) h2
  | some text =>
    obtain ⟨content, d1, d2⟩ := C79_document num toString hn ht s.items hall s.shift s.grow text hf
    obtain ⟨w', e1, e2, e3⟩ := draw_only (svg num toString) (by
        have h := (C79_empty num toString [] ⟨0, 0⟩ ⟨0, 0⟩).2 (by simp)
        simp only [svg, h, Option.isNone_none]) ".svg" argv name hname junk swap (fun i o => [draw i o]) w h0 s text
      (by simp only [List.map_cons, List.map_nil, drawn, if_true]; rw [show (svg num toString).blank = {} from rfl, hd]; rfl) (by simp [svg, hf]) (by simp [svg, hf]) hw
    exact ⟨w', text, content, e1, e2, d1, d2, e3⟩

/-- **C107, the example** (example/visualizer.svg.cpp): however the program reads the points, `name.svg` contains what C93 describes for them. -/
theorem C107_example (argv : List Life.Path) (name : Life.Path) (hname : argv[1]? = some name) (junk : Life.Path) (swap : Bool)
    (readTest readAnswer : Option (List Char) → List Svg.Point) (w : World SvgPic Char) (h0 : ∀ x, w.obj x = none)
    (hw : w.canWrite (name ++ ".svg".toList) = true) :
    ∃ w', visualizer (svg Fp.attributeText Fp.toStringText) ".svg" argv junk swap (fun i o =>
        [.edit 0 fun s => .ok { s with items := s.items ++ [.shape (.polygon (readTest i)) (VisualizerExample.outline ⟨0, 0, 0⟩), .text ['\n']] },
          .edit 0 fun s => .ok { s with items := s.items ++ [.shape (.polyline (readAnswer o)) (VisualizerExample.outline ⟨255, 0, 0⟩), .text ['\n']] },
          .edit 0 fun s => .ok { s with shift := ⟨3, 3⟩, grow := ⟨6, 6⟩ }]) w = .ok w' ∧
      w'.files (name ++ ".svg".toList) =
        VisualizerExample.svgMain (readTest (w.files (name ++ ".in".toList))) (readAnswer (w.files (name ++ ".ans".toList))) ∧
      ∀ q, q ≠ name ++ ".svg".toList → w'.files q = w.files q := by
  cases hf : VisualizerExample.svgMain (readTest (w.files (name ++ ".in".toList))) (readAnswer (w.files (name ++ ".ans".toList))) with
  | none =>
    obtain ⟨t, -, -, h, -⟩ := C93_svg (readTest (w.files (name ++ ".in".toList))) (readAnswer (w.files (name ++ ".ans".toList)))
    rw [hf] at h
    cases h
  | some text =>
    unfold VisualizerExample.svgMain at hf
    exact draw_only (svg Fp.attributeText Fp.toStringText) (by
        have h := (C79_empty Fp.attributeText Fp.toStringText [] ⟨0, 0⟩ ⟨0, 0⟩).2 (by simp)
        simp only [svg, h, Option.isNone_none]) ".svg" argv name hname junk swap (fun i o =>
        [fun s => .ok { s with items := s.items ++ [.shape (.polygon (readTest i)) (VisualizerExample.outline ⟨0, 0, 0⟩), .text ['\n']] },
          fun s => .ok { s with items := s.items ++ [.shape (.polyline (readAnswer o)) (VisualizerExample.outline ⟨255, 0, 0⟩), .text ['\n']] },
          fun s => .ok { s with shift := ⟨3, 3⟩, grow := ⟨6, 6⟩ }]) w h0 _ text rfl (congrArg Option.isNone hf)
        (congrArg (fun o : Option (List Char) => (Except.ok (o.getD []) : Out (List Char))) hf) hw

/-- A program that draws one white pixel, although there is an old file. -/
example : ∃ w' bytes, visualizer png ".png" ["vis".toList, "t".toList] [] true (fun _ _ => [.edit 0 fun _ => .ok [[VisualizerExample.white]]])
    ⟨fun _ => none, fun _ => some [], fun _ => true⟩ = .ok w' ∧ w'.files "t.png".toList = some bytes ∧
    Spec.PngFormat.decode bytes = some [[VisualizerExample.white]] ∧ w'.files "t.in".toList = some [] := by
  obtain ⟨w', bytes, h1, h2, h3, h4⟩ := C107_png_partial ["vis".toList, "t".toList] "t".toList rfl [] true (fun _ _ _ => .ok [[VisualizerExample.white]])
    ⟨fun _ => none, fun _ => some [], fun _ => true⟩ (fun _ => rfl) [[VisualizerExample.white]] rfl 1 1 (by simp [Spec.PngFormat.Rect]) (by omega) (by omega)
    (by norm_num) rfl
  exact ⟨w', bytes, h1, h2, h3, h4 _ (by decide)⟩

end ICPC.Props
