import Verif.Model.ArchiveMain
import Verif.Spec.ArchiveMain
import Verif.Props.ConvexDisk
import Verif.Props.JavaSortHack
import Verif.Props.Polygon
import Verif.Props.Init
import Verif.Props.Input
import Verif.Props.GraphIO

/-! # The programs in archive/ (C109) -/

namespace ICPC.Props

open ICPC ICPC.Spec ICPC.Archive ICPC.Init Rand

variable {R : Type}

/-! ## Arguments -/

theorem argument_eq (argv : List (List Char)) (p : CommandParser) (hp : parseArgs argv = .ok p) (name : List Char) (hn : IsCmd name)
    (ht : ∀ c ∈ name, ¬ White c) (d : Int) :
    (∀ v, NumberOf parseInteger argv name d v → argument p name d = .ok v) ∧
    (BadNumber parseInteger argv name → argument p name d = .error .throw) := by
  have hne : name ≠ [] := by obtain ⟨c, r, rfl⟩ := hn; simp
  by_cases hm : name ∈ argv
  · obtain ⟨pre, tail, rfl, hpre⟩ := List.eq_append_cons_of_mem hm
    have hval : ∀ t, ValueOf (pre ++ name :: tail) name t → ∃ rest, tail = t :: rest := by
      rintro t ⟨pre', rest, e, hpre'⟩
      have h1 : (pre ++ name :: tail).idxOf name = pre.length := by
        rw [List.idxOf_append_of_notMem hpre, List.idxOf_cons_self, Nat.add_zero]
      have h2 : (pre' ++ name :: t :: rest).idxOf name = pre'.length := by
        rw [List.idxOf_append_of_notMem hpre', List.idxOf_cons_self, Nat.add_zero]
      rw [e, h2] at h1
      obtain ⟨rfl, e2⟩ := List.append_inj e h1.symm
      exact ⟨rest, (List.cons.inj e2).2⟩
    have harg : ∃ args post, tail = args ++ post ∧ ArgumentsOf args post := by
      refine ⟨tail.takeWhile fun t => !isCommand t, tail.dropWhile fun t => !isCommand t, (List.takeWhile_append_dropWhile).symm, ?_, ?_⟩
      · intro a ha h
        have := List.all_eq_true.1 (List.all_takeWhile (l := tail) (p := fun t => !isCommand t)) a ha
        obtain ⟨c, r, rfl⟩ := h
        simp [isCommand] at this
      · cases h : tail.dropWhile fun t => !isCommand t with
        | nil => exact Or.inl rfl
        | cons m r =>
          refine Or.inr ⟨m, r, rfl, ?_⟩
          have h2 : ((tail.dropWhile fun t => !isCommand t).head?.map isCommand) = some true := by
            have := List.head?_dropWhile_not (fun t => !isCommand t) tail
            rw [h] at this ⊢
            simpa using this
          rw [h] at h2
          have h3 : isCommand m = true := by simpa using h2
          unfold isCommand at h3
          rcases m with _ | ⟨a, _ | ⟨b, _ | ⟨c, r⟩⟩⟩ <;> simp at h3
          exact ⟨c, r, by rw [h3.1, h3.2]⟩
    obtain ⟨args, post, rfl, ha⟩ := harg
    obtain ⟨c, h1, -, -, h2, -⟩ := C39_arguments pre args post name p hn ht ha hp
    have hrun : argument p name d = asIntegerOr args.head? d := by
      unfold argument
      rw [h1, ok_bind, h2]
    rw [hrun]
    have hhead : ∀ t, ValueOf (pre ++ name :: (args ++ post)) name t → ¬ IsCmd t → args.head? = some t := by
      intro t hv hc
      obtain ⟨rest, e⟩ := hval t hv
      rcases args with _ | ⟨a, args⟩
      · rcases ha.2 with rfl | ⟨m, r, rfl, hmc⟩
        · cases e
        · rw [List.nil_append] at e
          exact absurd ((List.cons.inj e).1 ▸ hmc) hc
      · rw [List.cons_append] at e
        rw [(List.cons.inj e).1]; rfl
    constructor
    · rintro v (⟨t, hv, hc, hr⟩ | ⟨hno, rfl⟩)
      · rw [hhead t hv hc]
        simp [asIntegerOr, asInteger, hr]
      · rcases args with _ | ⟨a, args⟩
        · rfl
        · exact absurd ⟨a, ⟨pre, args ++ post, rfl, hpre⟩, ha.1 a (by simp)⟩ hno
    · rintro ⟨t, hv, hc, hr⟩
      rw [hhead t hv hc]
      simp [asIntegerOr, asInteger, hr]
  · obtain ⟨c, h1, -, -, -, -, -, h2⟩ := C39_missing argv name p hne ht (fun h => hm h.2) hp
    have hrun : argument p name d = .ok d := by
      unfold argument
      rw [h1, ok_bind, h2]
    have hnov : ∀ t, ¬ ValueOf argv name t := by
      rintro t ⟨pre, rest, rfl, -⟩
      exact hm (by simp)
    rw [hrun]
    constructor
    · rintro v (⟨t, hv, -⟩ | ⟨-, rfl⟩)
      · exact absurd hv (hnov t)
      · rfl
    · rintro ⟨t, hv, -⟩
      exact absurd hv (hnov t)

/-- **C109.** The programs of the archive read the arguments `--n` and `--dim` or `--min`: the number after the name, else the default value.
Arguments that are not numbers, a repeated command and everything else that `Generator::init` rejects is an exception. -/
theorem C109_arguments (parse : List Char → Option R) (argv : List (List Char)) (g : Globals R) (second : List Char)
    (hsec : second = "--dim".toList ∨ second = "--min".toList) (d1 d2 : Int) :
    (∀ g' a b, generatorInit parse argv g = .ok g' → NumberOf parseInteger argv "--n".toList d1 a → NumberOf parseInteger argv second d2 b →
      readArguments parse argv g second d1 d2 = .ok (a, b)) ∧
    (BadNumber parseInteger argv "--n".toList ∨ BadNumber parseInteger argv second ∨ generatorInit parse argv g = .error .throw →
      readArguments parse argv g second d1 d2 = .error .throw) := by
  have hn1 : IsCmd "--n".toList := ⟨'n', [], rfl⟩
  have ht1 : ∀ c ∈ "--n".toList, ¬ White c := by decide
  have hn2 : IsCmd second := by rcases hsec with rfl | rfl; exacts [⟨'d', ['i', 'm'], rfl⟩, ⟨'m', ['i', 'n'], rfl⟩]
  have ht2 : ∀ c ∈ second, ¬ White c := by rcases hsec with rfl | rfl <;> decide
  have hargs : ∀ g', generatorInit parse argv g = .ok g' → parseArgs argv = .ok g'.arguments := by
    intro g' h
    obtain ⟨hi, p, hp⟩ := baseInit_ok parse argv g g' h
    rw [generatorInit, baseInit_eq parse argv g p hp hi] at h
    obtain ⟨_, _, h⟩ := bind_ok h
    obtain ⟨_, _, h⟩ := bind_ok h
    obtain ⟨_, _, h⟩ := bind_ok h
    obtain ⟨_, _, h⟩ := bind_ok h
    obtain ⟨_, _, h⟩ := bind_ok h
    rw [← Except.ok.inj h, hp]
  have hfail : ∀ e, generatorInit parse argv g = .error e → e = .throw := by
    intro e h
    by_contra hc
    by_cases hg : ∃ g', baseInit parse argv g = .ok g'
    · obtain ⟨g', hg⟩ := hg
      rw [generatorInit, hg] at h; cases h
    · rcases Classical.em _ with hgood | hbad
      · obtain ⟨g', h', -⟩ := (C69_accepts parse argv g).1 hgood
        exact hg ⟨g', h'⟩
      · rw [generatorInit, (C69_accepts parse argv g).2 hbad] at h
        exact hc (Except.error.inj h).symm
  constructor
  · intro g' a b hg ha hb
    have hp := hargs g' hg
    unfold readArguments
    rw [hg, ok_bind, (argument_eq argv _ hp _ hn1 ht1 d1).1 a ha, ok_bind, (argument_eq argv _ hp _ hn2 ht2 d2).1 b hb]
    rfl
  · intro hbad
    unfold readArguments
    cases hg : generatorInit parse argv g with
    | error e => rw [hfail e hg]; rfl
    | ok g' =>
      have hp := hargs g' hg
      rw [ok_bind]
      have h1 := (argument_eq argv _ hp _ hn1 ht1 d1)
      have h2 := (argument_eq argv _ hp _ hn2 ht2 d2)
      rcases hbad with hbad | hbad | hbad
      · rw [h1.2 hbad]; rfl
      · by_cases hb1 : BadNumber parseInteger argv "--n".toList
        · rw [h1.2 hb1]; rfl
        · have : ∃ a, NumberOf parseInteger argv "--n".toList d1 a := by
            by_cases hex : ∃ t, ValueOf argv "--n".toList t ∧ ¬ IsCmd t
            · obtain ⟨t, hv, hc⟩ := hex
              cases hr : parseInteger t with
              | none => exact absurd ⟨t, hv, hc, hr⟩ hb1
              | some a => exact ⟨a, Or.inl ⟨t, hv, hc, hr⟩⟩
            · exact ⟨d1, Or.inr ⟨hex, rfl⟩⟩
          obtain ⟨a, ha⟩ := this
          rw [h1.1 a ha, ok_bind, h2.2 hbad]; rfl
      · rw [hg] at hbad; cases hbad

/-! ## Texts -/

theorem writePoints_eq (ps : List Pt) (h : ps ≠ []) : writePoints ps = pointFile ps := by
  have key : ∀ ps : List Pt, ps ≠ [] →
      separate ['\n'] (ps.map fun p => write (.pair (.int p.1) (.int p.2))) ++ ['\n'] = pointLines ps := by
    intro ps
    induction ps with
    | nil => intro h; exact absurd rfl h
    | cons p ps ih =>
      intro _
      cases ps with
      | nil => simp [separate, pointLines, C41_write.2.2.1, C41_write.1]
      | cons q ps =>
        have h2 := ih (by simp)
        rw [List.map_cons] at h2
        rw [List.map_cons, List.map_cons, separate, List.append_assoc, h2, pointLines]
        · simp [separate, C41_write.2.2.1, C41_write.1, pointLines]
  unfold writePoints pointFile
  rw [C41_join, if_neg (by decide), C41_write.1, List.append_assoc, key ps h]
  simp

/-- **C109.** A validator that reads the number of points, one line per point and the end of the file with strict streams accepts exactly the
canonical text of at least one point with coordinates in the given range, and reads these points from it. -/
theorem C109_reader (cfg : StreamCfg) (hs : cfg.spaceSensitive = true) (most lower upper : Int) (h1 : I64 lower) (h2 : I64 upper) (h3 : I64 most)
    (s : List Char) (ps : List (Int × Int)) :
    validatePoints cfg most lower upper s = .ok ps ↔
      s = pointFile ps ∧ 1 ≤ (ps.length : Int) ∧ (ps.length : Int) < most ∧ ∀ p ∈ ps, (lower ≤ p.1 ∧ p.1 < upper) ∧ lower ≤ p.2 ∧ p.2 < upper := by
  have hblank : ∀ r, Delimited (' ' :: r) := fun r => Or.inr ⟨' ', r, rfl, Or.inl rfl⟩
  have hline : ∀ r, Delimited ('\n' :: r) := fun r => Or.inr ⟨'\n', r, rfl, Or.inr (Or.inr (Or.inl rfl))⟩
  have key : ∀ (n : Nat) (s : List Char) (ps : List (Int × Int)) (rest : List Char), readLines cfg lower upper n s = .ok (ps, rest) ↔
      s = pointLines ps ++ rest ∧ ps.length = n ∧ ∀ p ∈ ps, (lower ≤ p.1 ∧ p.1 < upper) ∧ lower ≤ p.2 ∧ p.2 < upper := by
    intro n
    induction n with
    | zero =>
      intro s ps rest
      rw [readLines]
      constructor
      · intro h
        simp only [Except.ok.injEq, Prod.mk.injEq] at h
        obtain ⟨rfl, rfl⟩ := h
        exact ⟨rfl, rfl, by simp⟩
      · rintro ⟨rfl, h, -⟩
        rw [List.length_eq_zero_iff.1 h]; rfl
    | succ n ih =>
      intro s ps rest
      rw [readLines]
      constructor
      · intro h
        obtain ⟨⟨x, s1⟩, e1, h⟩ := bind_eq_ok.1 h
        obtain ⟨s2, e2, h⟩ := bind_eq_ok.1 h
        obtain ⟨⟨y, s3⟩, e3, h⟩ := bind_eq_ok.1 h
        obtain ⟨s4, e4, h⟩ := bind_eq_ok.1 h
        obtain ⟨⟨qs, s5⟩, e5, h⟩ := bind_eq_ok.1 h
        simp only [Except.ok.injEq, Prod.mk.injEq] at h
        obtain ⟨rfl, rfl⟩ := h
        obtain ⟨rfl, -, -, hx⟩ := ((C31_integer cfg hs lower upper s).1 x s1).1 e1
        obtain rfl := (space_strict hs _ _).1 e2
        obtain ⟨rfl, -, -, hy⟩ := ((C31_integer cfg hs lower upper _).1 y s3).1 e3
        obtain rfl := (newline_strict hs _ _).1 e4
        obtain ⟨rfl, hl, hb⟩ := (ih _ _ _).1 e5
        refine ⟨by simp [pointLines], by simp [hl], ?_⟩
        rintro p (_ | ⟨_, hp⟩)
        · exact ⟨hx, hy⟩
        · exact hb p hp
      · rintro ⟨rfl, hl, hb⟩
        rcases ps with _ | ⟨⟨x, y⟩, ps⟩
        · cases hl
        · obtain ⟨⟨hx1, hx2⟩, hy1, hy2⟩ := hb (x, y) (by simp)
          dsimp only at hx1 hx2 hy1 hy2
          unfold I64 at h1 h2
          rw [show pointLines ((x, y) :: ps) ++ rest = decimal x ++ ' ' :: (decimal y ++ '\n' :: (pointLines ps ++ rest)) by simp [pointLines],
            ((C31_integer cfg hs lower upper _).1 x _).2 ⟨rfl, hblank _, ⟨by omega, by omega⟩, hx1, hx2⟩, ok_bind]
          dsimp only
          rw [(space_strict hs _ _).2 rfl, ok_bind,
            ((C31_integer cfg hs lower upper _).1 y _).2 ⟨rfl, hline _, ⟨by omega, by omega⟩, hy1, hy2⟩, ok_bind]
          dsimp only
          rw [(newline_strict hs _ _).2 rfl, ok_bind, (ih _ ps rest).2 ⟨rfl, by simpa using hl, fun p hp => hb p (by simp [hp])⟩]
          rfl
  unfold validatePoints
  constructor
  · intro h
    obtain ⟨⟨n, s1⟩, e1, h⟩ := bind_eq_ok.1 h
    obtain ⟨s2, e2, h⟩ := bind_eq_ok.1 h
    obtain ⟨⟨qs, s3⟩, e3, h⟩ := bind_eq_ok.1 h
    obtain ⟨s4, e4, h⟩ := bind_eq_ok.1 h
    obtain rfl := Except.ok.inj h
    obtain ⟨rfl, -, -, hn1, hn2⟩ := ((C31_integer cfg hs 1 most s).1 n s1).1 e1
    obtain rfl := (newline_strict hs _ _).1 e2
    obtain ⟨rfl, hl, hb⟩ := (key _ _ _ _).1 e3
    obtain ⟨rfl, -⟩ := (eof_strict hs _ _).1 e4
    have hn : (qs.length : Int) = n := by rw [hl]; omega
    refine ⟨by rw [pointFile, hn]; simp, by omega, by omega, hb⟩
  · rintro ⟨rfl, hn1, hn2, hb⟩
    unfold I64 at h3
    rw [pointFile, ((C31_integer cfg hs 1 most _).1 ps.length _).2 ⟨rfl, hline _, ⟨by omega, by omega⟩, hn1, hn2⟩, ok_bind]
    dsimp only
    rw [(newline_strict hs _ _).2 rfl, ok_bind, (key _ _ ps []).2 ⟨by simp, by simp, hb⟩, ok_bind]
    dsimp only
    rw [(eof_strict hs _ _).2 ⟨rfl, rfl⟩]
    rfl

/-! ## Programs -/

/-- **C109.** archive/polygon.cpp: whatever is written is the canonical text of `n ≥ 3` points of the square, and a strict validator reads the points
that `Random::polygon` returned. -/
theorem C109_polygon (parse : List Char → Option R) (g : Globals R) {part : (Pt → Bool) → List Pt → List Pt} (hpart : PartitionContract part)
    {sort : (Pt → Pt → Bool) → List Pt → List Pt} (hsort : SortContract sort) (fits : Int → Int → Bool) (fuel : Nat) (argv : List (List Char))
    (n dim : Int) (hn : NumberOf parseInteger argv "--n".toList 100000 n) (hd : NumberOf parseInteger argv "--dim".toList 1000000000 dim)
    (hi : I64 (n + 1)) (hi2 : I64 (dim + 1)) (cfg : StreamCfg) (hs : cfg.spaceSensitive = true) :
    Values (polygonMain parse g fits part sort fuel argv) fun text => ∃ ps : List Pt, text = pointFile ps ∧ (ps.length : Int) = n ∧ 3 ≤ n ∧
      (∀ p ∈ ps, (-dim < p.1 ∧ p.1 < dim) ∧ -dim < p.2 ∧ p.2 < dim) ∧
      validatePoints cfg (n + 1) (-dim + 1) dim text = .ok ps := by
  unfold polygonMain
  refine values_lift_bind fun a ha => ?_
  have hab : a = (n, dim) := by
    cases hg : generatorInit parse argv g with
    | ok g' =>
      rw [(C109_arguments parse argv g _ (Or.inl rfl) 100000 1000000000).1 g' n dim hg hn hd] at ha
      exact (Except.ok.inj ha).symm
    | error e => rw [readArguments, hg] at ha; cases ha
  obtain rfl := hab
  refine values_bind (C104_points hpart hsort fits fuel n dim) fun ps hps => values_pure ?_
  obtain ⟨h3, -, hl, hb⟩ := hps
  have hlen : (ps.length : Int) = n := by omega
  have htext : writePoints ps = pointFile ps := writePoints_eq ps (by rintro rfl; simp at hlen; omega)
  refine ⟨ps, htext, hlen, h3, hb, (C109_reader cfg hs _ _ _ ?_ ?_ hi _ _).2 ⟨htext, by omega, by omega, fun p hp => ?_⟩⟩
  · unfold I64 at *
    obtain ⟨p, hp⟩ := List.exists_mem_of_length_pos (l := ps) (by omega)
    have := hb p hp
    omega
  · unfold I64 at *
    obtain ⟨p, hp⟩ := List.exists_mem_of_length_pos (l := ps) (by omega)
    have := hb p hp
    omega
  · have := hb p hp
    exact ⟨⟨by omega, by omega⟩, by omega, by omega⟩

/-- **C109, refuted for archive/convex.cpp.** Whenever the points of the polygon are not on a line, the program writes `n + 1` instead of `n`
points; the last one is the first one again. -/
theorem C109_convex_refuted (parse : List Char → Option R) (g : Globals R) (candidate : Int → Rand Pt) (hc : ∀ r, Values (candidate r) fun _ => True)
    (fuel : Nat) (argv : List (List Char)) (n dim : Int) (hn : NumberOf parseInteger argv "--n".toList 100000 n)
    (hd : NumberOf parseInteger argv "--dim".toList 1000000000 dim) (h1 : 1 ≤ n) (h2 : 1 ≤ dim) :
    Values (convexMain parse g candidate fuel argv) fun text => ∃ ps : List Pt, text = writePoints ps ∧ (¬ Collinear ps →
      ∃ (v : List Pt) (p0 : Pt), v.head? = some p0 ∧ (v.length : Int) = n ∧ v.Nodup ∧ ConvexPolygon v ∧ text = pointFile (v ++ [p0]) ∧
        (∀ p ∈ v, p.1 * p.1 + p.2 * p.2 < dim * dim) ∧ ∃ rest, text = decimal (n + 1) ++ '\n' :: rest) := by
  unfold convexMain
  refine values_lift_bind fun a ha => ?_
  have hab : a = (n, dim) := by
    cases hg : generatorInit parse argv g with
    | ok g' =>
      rw [(C109_arguments parse argv g _ (Or.inl rfl) 100000 1000000000).1 g' n dim hg hn hd] at ha
      exact (Except.ok.inj ha).symm
    | error e => rw [readArguments, hg] at ha; cases ha
  obtain rfl := hab
  refine values_bind (P := fun ps => ¬ Collinear ps → ∃ (v : List Pt) (p0 : Pt), ps = v ++ [p0] ∧ v.head? = some p0 ∧ (v.length : Int) = n ∧ ConvexPolygon v ∧ v.Nodup ∧
    ∀ p ∈ v, p.1 * p.1 + p.2 * p.2 < dim * dim) (C102_result candidate hc fuel n dim h1 h2) fun ps hps => values_pure ⟨ps, rfl, fun hnc => ?_⟩
  obtain ⟨v, p0, rfl, hh, hl, hcv, hnd, hb⟩ := hps hnc
  refine ⟨v, p0, hh, hl, hnd, hcv, writePoints_eq _ (by simp), hb, ?_⟩
  rw [writePoints_eq _ (by simp), pointFile]
  refine ⟨pointLines (v ++ [p0]), ?_⟩
  rw [List.length_append, List.length_singleton, Nat.cast_add, hl, Nat.cast_one]

/-- **C109.** archive/javaSortHack.cpp: for non-negative arguments that fit, every execution writes `n` and a line with `n` different numbers of
`[min, min + n]`. -/
theorem C109_javaSortHack (parse : List Char → Option R) (g g' : Globals R) (argv : List (List Char)) (hg : generatorInit parse argv g = .ok g')
    (n : Nat) (mi : Int) (hn : NumberOf parseInteger argv "--n".toList 100000 n) (hd : NumberOf parseInteger argv "--min".toList 1 mi)
    (h0 : 0 ≤ mi) (h2 : I64 (mi + n)) :
    SatOk (javaSortHackMain parse g argv) fun text => ∃ vs : List Int, text = listFile vs ∧ vs.length = n ∧ vs.Nodup ∧
      ∀ v, v ∈ vs ↔ mi ≤ v ∧ v ≤ mi + n ∧ v ≠ mi + n - 2 * ((n - 43) / 4 : Nat) := by
  have hrun : javaSortHackMain parse g argv = (javaSortHack n mi >>= fun data =>
      pure (write (.int n) ++ ['\n'] ++ joinRange DEFAULT_SEPARATOR (data.map fun v => write (.int v)) ++ ['\n'])) := by
    unfold javaSortHackMain
    rw [(C109_arguments parse argv g _ (Or.inr rfl) 100000 1).1 g' n mi hg hn hd]
    rfl
  rw [hrun]
  refine (C103_values n mi h0 h2).bind ?_
  rintro data ⟨hl, hnd, hv⟩
  refine satOk_done ⟨data, ?_, hl, hnd, hv⟩
  rw [C41_join, if_neg (by decide), C41_write.1, listFile, hl]
  simp [C41_write.1, DEFAULT_SEPARATOR]

/-- **C109.** Arguments that are not numbers, repeated commands and everything else that `Generator::init` rejects are exceptions, nothing is
written. -/
theorem C109_throws (parse : List Char → Option R) (g : Globals R) (argv : List (List Char))
    (hbad : BadNumber parseInteger argv "--n".toList ∨ generatorInit parse argv g = .error .throw) :
    (∀ candidate fuel, convexMain parse g candidate fuel argv = .done (.error .throw)) ∧
    (∀ fits part sort fuel, polygonMain parse g fits part sort fuel argv = .done (.error .throw)) ∧
    javaSortHackMain parse g argv = .done (.error .throw) := by
  have h1 := (C109_arguments parse argv g _ (Or.inl rfl) 100000 1000000000).2 (hbad.imp_right Or.inr)
  have h2 := (C109_arguments parse argv g _ (Or.inr rfl) 100000 1).2 (hbad.imp_right Or.inr)
  refine ⟨fun _ _ => ?_, fun _ _ _ _ => ?_, ?_⟩
  · unfold convexMain; rw [h1]; rfl
  · unfold polygonMain; rw [h1]; rfl
  · unfold javaSortHackMain; rw [h2]; rfl

/-! ## Examples -/

private def exArgs : List (List Char) := ["generator", "--n", "3", "--seed", "5"].map String.toList

private def exState : Globals Unit := ⟨⟨(), (), false, false⟩, false, ⟨[], [], []⟩, none⟩

example : NumberOf parseInteger exArgs "--n".toList 100000 3 :=
  Or.inl ⟨"3".toList, ⟨["generator".toList], ["--seed".toList, "5".toList], rfl, by decide⟩, (by rintro ⟨c, r, h⟩; cases h), by decide +kernel⟩

example : ((javaSortHackMain (fun _ => none) exState exArgs).run true (List.replicate 10 (2 ^ 63 + 5))).map (·.1.toOption) =
    some (some "3\n1 3 2\n".toList) := by decide +kernel

example : validatePoints ⟨true, true, true, 43⟩ 10 (-5) 5 "2\n-3 4\n0 1\n".toList = .ok [(-3, 4), (0, 1)] := by decide +kernel

example : validatePoints ⟨true, true, true, 43⟩ 10 (-5) 5 "2\n-3 4\n0 1".toList = .error (.exit 43) := by decide +kernel

end ICPC.Props
