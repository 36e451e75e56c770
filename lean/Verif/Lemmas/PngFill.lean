import Verif.Lemmas.PngDraw

/-!
# `floodFill` and `fillRectangle`
-/

namespace ICPC.Png

open Spec.PngFormat

/-! ## `floodFill` -/

/-- Number of pixels of a colour. -/
def countColor (old : Color) : Image → Nat
  | [] => 0
  | row :: im => row.count old + countColor old im

theorem count_set_row (old d : Color) (hd : d ≠ old) : ∀ (row : List Color) (x : Nat), row[x]? = some old →
    (row.set x d).count old + 1 = row.count old := by
  intro row
  induction row with
  | nil => intro x h; simp at h
  | cons c row ih =>
    intro x h
    cases x with
    | zero =>
      simp at h
      subst h
      rw [List.set_cons_zero, List.count_cons_of_ne hd, List.count_cons_self]
    | succ x =>
      rw [List.getElem?_cons_succ] at h
      rw [List.set_cons_succ, List.count_cons, List.count_cons, ← ih x h]
      omega

theorem count_set (old d : Color) (hd : d ≠ old) : ∀ (im : Image) (y x : Nat) (row : List Color), im[y]? = some row → row[x]? = some old →
    countColor old (im.set y (row.set x d)) + 1 = countColor old im := by
  intro im
  induction im with
  | nil => intro y x row h; simp at h
  | cons r im ih =>
    intro y x row h hx
    cases y with
    | zero =>
      simp at h
      subst h
      rw [List.set_cons_zero, countColor, countColor, ← count_set_row old d hd r x hx]
      omega
    | succ y =>
      rw [List.getElem?_cons_succ] at h
      rw [List.set_cons_succ, countColor, countColor, ← ih y x row h hx]
      omega

/-- Painting one pixel of colour `old`. -/
theorem paint_count (m : BlendMode) (im im' : Image) (p : Point) (fill old : Color) (h : at? im p = some old)
    (hne : mix m old fill ≠ old) (hp : paint m im p.x p.y fill = .ok im') : countColor old im' + 1 = countColor old im := by
  unfold paint setPixel at hp
  rw [getPixel_eq, h] at hp
  simp only [ok_bind, combine_eq, pure_out] at hp
  injection hp with hp
  subst hp
  unfold at? at h
  split at h
  · cases hrow : im[p.y.toNat]? with
    | none => rw [hrow] at h; simp at h
    | some row =>
      rw [hrow, Option.bind_some] at h
      have hgd : im.getD p.y.toNat [] = row := by rw [List.getD_eq_getElem?_getD, hrow]; rfl
      rw [hgd]
      exact count_set old _ hne im _ _ row hrow h
  · simp at h

/-- The pixels in `V` have been painted; all are reached from `p` and had the colour `old`. -/
structure FloodInv (m : BlendMode) (fill old : Color) (im0 : Image) (p : Point) (V : Point → Prop) (im : Image) : Prop where
  isIn : ∀ q, V q → at? im q = some (mix m old fill)
  notIn : ∀ q, ¬ V q → at? im q = at? im0 q
  reach : ∀ q, V q → Region im0 p q
  was : ∀ q, V q → at? im0 q = some old

theorem rect_height {w k : Nat} {im : Image} (hr : Rect w k im) : height im = k := by unfold height; rw [hr.1]

theorem rect_width {w k : Nat} {im : Image} (hr : Rect w k im) (hk : 0 < k) : width im = w := by
  unfold width
  obtain ⟨h1, h2⟩ := hr
  cases im with
  | nil => simp at h1; omega
  | cons row im =>
    simp only [List.isEmpty_cons, Bool.false_eq_true, if_false, List.headD_cons]
    rw [h2 row List.mem_cons_self]

theorem floodDirs_ok (m : BlendMode) (fill old : Color) (hne : mix m old fill ≠ old) (im0 : Image) (w k : Nat) (hk : 0 < k)
    (hr0 : Rect w k im0) (p cur : Point) (hp0 : at? im0 p = some old) :
    ∀ (ds : List (Int × Int)) (im : Image) (todo : List Point) (V : Point → Prop), Rect w k im → FloodInv m fill old im0 p V im →
      V cur → (∀ d ∈ ds, Adjacent cur ⟨cur.x + d.1, cur.y + d.2⟩) →
      ∃ V' im' todo', floodDirs m old fill cur ds im todo = .ok (im', todo') ∧ Rect w k im' ∧ FloodInv m fill old im0 p V' im' ∧
        (∀ q, V q → V' q) ∧ (∀ q, V' q → V q ∨ q ∈ todo') ∧ (∀ q ∈ todo, q ∈ todo') ∧ (∀ q ∈ todo', q ∈ todo ∨ V' q) ∧
        (∀ d ∈ ds, at? im0 ⟨cur.x + d.1, cur.y + d.2⟩ = some old → V' ⟨cur.x + d.1, cur.y + d.2⟩) ∧
        countColor old im' + todo'.length = countColor old im + todo.length := by
  intro ds
  induction ds with
  | nil =>
    intro im todo V hr hinv _ _
    exact ⟨V, im, todo, rfl, hr, hinv, fun _ h => h, fun _ h => Or.inl h, fun _ h => h, fun _ h => Or.inl h, by simp, rfl⟩
  | cons d ds ih =>
    intro im todo V hr hinv hcur hadj
    obtain ⟨dx, dy⟩ := d
    have hadj' : ∀ d ∈ ds, Adjacent cur ⟨cur.x + d.1, cur.y + d.2⟩ := fun d hd => hadj d (List.mem_cons_of_mem _ hd)
    have hskip : ∀ (im : Image) (V : Point → Prop) (todo : List Point), Rect w k im → FloodInv m fill old im0 p V im → V cur →
        (at? im0 ⟨cur.x + dx, cur.y + dy⟩ = some old → V ⟨cur.x + dx, cur.y + dy⟩) →
        ∃ V' im' todo', floodDirs m old fill cur ds im todo = .ok (im', todo') ∧ Rect w k im' ∧ FloodInv m fill old im0 p V' im' ∧
          (∀ q, V q → V' q) ∧ (∀ q, V' q → V q ∨ q ∈ todo') ∧ (∀ q ∈ todo, q ∈ todo') ∧ (∀ q ∈ todo', q ∈ todo ∨ V' q) ∧
          (∀ d ∈ (dx, dy) :: ds, at? im0 ⟨cur.x + d.1, cur.y + d.2⟩ = some old → V' ⟨cur.x + d.1, cur.y + d.2⟩) ∧
          countColor old im' + todo'.length = countColor old im + todo.length := by
      intro im V todo hr hinv hcur hdone
      obtain ⟨V', im', todo', g1, g2, g3, g4, g5, g6, g7, g8, g9⟩ := ih im todo V hr hinv hcur hadj'
      refine ⟨V', im', todo', g1, g2, g3, g4, g5, g6, g7, ?_, g9⟩
      intro d hd hold
      rcases List.mem_cons.1 hd with rfl | hd
      · exact g4 _ (hdone hold)
      · exact g8 d hd hold
    have hnone : ¬ (0 ≤ cur.x + dx ∧ cur.x + dx < w ∧ 0 ≤ cur.y + dy ∧ cur.y + dy < k) →
        at? im0 ⟨cur.x + dx, cur.y + dy⟩ = some old → V ⟨cur.x + dx, cur.y + dy⟩ := by
      intro h hold
      exact absurd ((at_rect hr0 ⟨cur.x + dx, cur.y + dy⟩).1 ⟨_, hold⟩) h
    rw [floodDirs]
    rw [rect_height hr, rect_width hr hk]
    split
    · exact hskip im V todo hr hinv hcur (hnone (by omega))
    split
    · exact hskip im V todo hr hinv hcur (hnone (by omega))
    rename_i hy hx
    obtain ⟨c, hc⟩ := (at_rect hr ⟨cur.x + dx, cur.y + dy⟩).2 (by dsimp only; omega)
    rw [getPixel_eq im ⟨cur.x + dx, cur.y + dy⟩, hc, ok_bind]
    split
    · rename_i hcne
      refine hskip im V todo hr hinv hcur ?_
      intro hold
      by_contra hV
      rw [hinv.notIn _ hV, hold] at hc
      injection hc with hc
      exact hcne hc.symm
    · rename_i hcold
      have hcold : c = old := by by_contra h; exact hcold h
      subst hcold
      obtain ⟨im1, p1, p2, p3⟩ := paint_ok m im ⟨cur.x + dx, cur.y + dy⟩ fill c hc
      have hcount := paint_count m im im1 ⟨cur.x + dx, cur.y + dy⟩ fill c hc hne p1
      have hVr : ¬ V ⟨cur.x + dx, cur.y + dy⟩ := by
        intro hV
        rw [hinv.isIn _ hV] at hc
        injection hc with hc
        exact hne hc
      have hwas : at? im0 ⟨cur.x + dx, cur.y + dy⟩ = some c := by rw [← hinv.notIn _ hVr, hc]
      have hinv1 : FloodInv m fill c im0 p (fun q => V q ∨ q = ⟨cur.x + dx, cur.y + dy⟩) im1 := by
        refine ⟨?_, ?_, ?_, ?_⟩
        · rintro q (hq | rfl)
          · rw [p2]
            split
            · rfl
            · exact hinv.isIn q hq
          · rw [p2, if_pos rfl]
        · intro q hq
          rw [not_or] at hq
          rw [p2, if_neg hq.2]
          exact hinv.notIn q hq.1
        · rintro q (hq | rfl)
          · exact hinv.reach q hq
          · exact .step cur _ (hinv.reach cur hcur) (hadj (dx, dy) List.mem_cons_self) (by rw [hwas, hp0])
        · rintro q (hq | rfl)
          · exact hinv.was q hq
          · exact hwas
      obtain ⟨V', im', todo', g1, g2, g3, g4, g5, g6, g7, g8, g9⟩ :=
        hskip im1 _ (⟨cur.x + dx, cur.y + dy⟩ :: todo) (p3 w k hr) hinv1 (Or.inl hcur) (fun _ => Or.inr rfl)
      rw [p1, ok_bind]
      refine ⟨V', im', todo', g1, g2, g3, fun q hq => g4 q (Or.inl hq), ?_, fun q hq => g6 q (List.mem_cons_of_mem _ hq), ?_, g8, ?_⟩
      · intro q hq
        rcases g5 q hq with (h | rfl) | h
        · exact Or.inl h
        · exact Or.inr (g6 _ List.mem_cons_self)
        · exact Or.inr h
      · intro q hq
        rcases g7 q hq with h | h
        · rcases List.mem_cons.1 h with rfl | h
          · exact Or.inr (g4 _ (Or.inr rfl))
          · exact Or.inl h
        · exact Or.inr h
      · rw [List.length_cons] at g9
        omega

theorem adjacent_dirs (p q : Point) : Adjacent p q ↔ ∃ d ∈ DIRECTIONS, q = ⟨p.x + d.1, p.y + d.2⟩ := by
  unfold Adjacent DIRECTIONS
  obtain ⟨px, py⟩ := p
  obtain ⟨qx, qy⟩ := q
  simp only [List.mem_cons, List.not_mem_nil, or_false, exists_eq_or_imp, exists_eq_left, Point.mk.injEq]
  constructor
  · intro h
    rcases abs_cases (qx - px) with ⟨e1, h1⟩ | ⟨e1, h1⟩ <;> rcases abs_cases (qy - py) with ⟨e2, h2⟩ | ⟨e2, h2⟩ <;> rw [e1, e2] at h <;> omega
  · rintro (⟨h1, h2⟩ | ⟨h1, h2⟩ | ⟨h1, h2⟩ | ⟨h1, h2⟩) <;> subst h1 <;> subst h2
    · simp
    · rw [show px + 0 - px = 0 by omega, show py + -1 - py = -1 by omega]; decide
    · simp
    · rw [show py + 0 - py = 0 by omega, show px + -1 - px = -1 by omega]; decide

theorem floodLoop_ok (m : BlendMode) (fill old : Color) (hne : mix m old fill ≠ old) (im0 : Image) (w k : Nat) (hk : 0 < k)
    (hr0 : Rect w k im0) (p : Point) (hp0 : at? im0 p = some old) :
    ∀ (s : Nat) (im : Image) (todo : List Point) (V : Point → Prop), countColor old im + todo.length = s → Rect w k im →
      FloodInv m fill old im0 p V im → (∀ q ∈ todo, V q) →
      (∀ q, V q → q ∉ todo → ∀ r, Adjacent q r → at? im0 r = some old → V r) →
      ∃ V' im', (∀ n, s ≤ n → floodLoop m old fill n im todo = .ok im') ∧ Rect w k im' ∧ FloodInv m fill old im0 p V' im' ∧
        (∀ q, V q → V' q) ∧ ∀ q, V' q → ∀ r, Adjacent q r → at? im0 r = some old → V' r := by
  intro s
  induction s with
  | zero =>
    intro im todo V hs hr hinv htodo hfr
    have : todo = [] := List.length_eq_zero_iff.1 (by omega)
    subst this
    exact ⟨V, im, fun n _ => by cases n <;> rfl, hr, hinv, fun _ h => h, fun q hq r => hfr q hq (by simp) r⟩
  | succ s ih =>
    intro im todo V hs hr hinv htodo hfr
    cases todo with
    | nil => exact ⟨V, im, fun n _ => by cases n <;> rfl, hr, hinv, fun _ h => h, fun q hq r => hfr q hq (by simp) r⟩
    | cons cur todo =>
      obtain ⟨V', im', todo', g1, g2, g3, g4, g5, g6, g7, g8, g9⟩ :=
        floodDirs_ok m fill old hne im0 w k hk hr0 p cur hp0 DIRECTIONS im todo V hr hinv (htodo cur List.mem_cons_self)
          (fun d hd => (adjacent_dirs _ _).2 ⟨d, hd, rfl⟩)
      rw [List.length_cons] at hs
      obtain ⟨V2, im2, f1, f2, f3, f4, f5⟩ := ih im' todo' V' (by omega) g2 g3 (by
        intro q hq
        rcases g7 q hq with h | h
        · exact g4 q (htodo q (List.mem_cons_of_mem _ h))
        · exact h) (by
        intro q hq hnot r hadj hold
        by_cases hqc : q = cur
        · subst hqc
          obtain ⟨d, hd, rfl⟩ := (adjacent_dirs _ _).1 hadj
          exact g8 d hd hold
        · rcases g5 q hq with h | h
          · refine g4 r (hfr q h ?_ r hadj hold)
            rw [List.mem_cons, not_or]
            exact ⟨hqc, fun h => hnot (g6 q h)⟩
          · exact absurd h hnot)
      refine ⟨V2, im2, ?_, f2, f3, fun q hq => f4 q (g4 q hq), f5⟩
      intro n hn
      obtain ⟨n, rfl⟩ : ∃ l, n = l + 1 := ⟨n - 1, by omega⟩
      rw [floodLoop, g1, ok_bind]
      exact f1 n (by omega)

theorem countColor_le (old : Color) (w : Nat) : ∀ im : Image, (∀ row ∈ im, row.length = w) → countColor old im ≤ im.length * w := by
  intro im
  induction im with
  | nil => intro; simp [countColor]
  | cons row im ih =>
    intro h
    have h1 := ih (fun r hr => h r (List.mem_cons_of_mem _ hr))
    have h2 := List.count_le_length (a := old) (l := row)
    rw [h row List.mem_cons_self] at h2
    rw [countColor, List.length_cons, Nat.add_mul]
    omega

theorem region_color {im : Image} {p q : Point} (h : Region im p q) : at? im q = at? im p := by
  cases h with
  | start => rfl
  | step r _ _ _ h => exact h

theorem floodFill_ok (m : BlendMode) (im : Image) (w k : Nat) (hr : Rect w k im) (p : Point) (fill : Color)
    (hp : 0 ≤ p.x ∧ p.x < w ∧ 0 ≤ p.y ∧ p.y < k) :
    ∃ im', Painted m fill (Region im p) im im' ∧ Rect w k im' ∧ ∀ fuel, k * w ≤ fuel → floodFill fuel m im p fill = .ok im' := by
  obtain ⟨old, hold⟩ := (at_rect hr p).2 hp
  obtain ⟨im1, p1, p2, p3⟩ := paint_ok m im p fill old hold
  have hf : ∀ fuel, floodFill fuel m im p fill =
      if old = mix m old fill then .ok im1 else floodLoop m old fill fuel im1 [p] := by
    intro fuel
    unfold floodFill
    rw [getPixel_eq, hold]
    simp only [ok_bind, p1]
    rw [getPixel_eq, p2, if_pos rfl]
    simp only [ok_bind, pure_out]
  by_cases hne : old = mix m old fill
  · refine ⟨im1, ?_, p3 w k hr, fun fuel _ => by rw [hf, if_pos hne]⟩
    intro q
    have hsame : at? im1 q = at? im q := by
      rw [p2]
      split
      · rename_i h; rw [h, hold, ← hne]
      · rfl
    refine ⟨?_, fun _ => hsame⟩
    intro hq
    rw [hsame, region_color hq, hold, Option.map_some, ← hne]
  · have hne' : mix m old fill ≠ old := fun h => hne h.symm
    have hcount := paint_count m im im1 p fill old hold hne' p1
    have hinv : FloodInv m fill old im p (fun q => q = p) im1 := by
      refine ⟨?_, ?_, ?_, ?_⟩
      · rintro q rfl; rw [p2, if_pos rfl]
      · intro q hq; rw [p2, if_neg hq]
      · rintro q rfl; exact .start
      · rintro q rfl; exact hold
    obtain ⟨V, im2, f1, f2, f3, f4, f5⟩ := floodLoop_ok m fill old hne' im w k (by omega) hr p hold _ im1 [p] _ rfl (p3 w k hr) hinv
      (by simp) (by
        intro q hq hnot
        simp only [List.mem_singleton] at hnot
        exact absurd hq hnot)
    have hV : ∀ q, V q ↔ Region im p q := by
      intro q
      refine ⟨f3.reach q, ?_⟩
      intro h
      induction h with
      | start => exact f4 p rfl
      | step q r _ hadj hr ih => exact f5 q ih r hadj (by rw [hr, hold])
    refine ⟨im2, ?_, f2, ?_⟩
    · intro q
      refine ⟨?_, ?_⟩
      · intro hq
        rw [f3.isIn q ((hV q).2 hq), region_color hq, hold]; rfl
      · intro hq
        exact f3.notIn q (fun h => hq ((hV q).1 h))
    · intro fuel hfuel
      rw [hf, if_neg hne]
      apply f1
      have := countColor_le old w im hr.2
      rw [hr.1] at this
      simp only [List.length_cons, List.length_nil]
      omega

/-! ## `fillRectangle` -/

/-- At the last column the inner loop leaves 1 in `y`. -/
theorem rectInner_end (m : BlendMode) (a b : Point) (border fill : Color) : ∀ (n : Nat) (x y : Int) (im : Image) (y' : Int) (im' : Image),
    x ≤ max a.x b.x → rectInner m a b border fill n x y im = .ok (y', im') → y' = 1 := by
  intro n
  induction n with
  | zero => intro x y im y' im' _ h; simp [rectInner] at h
  | succ n ih =>
    intro x y im y' im' hx h
    rw [rectInner, if_pos hx] at h
    by_cases hlast : x = max a.x b.x
    · have ht : (decide (a.y ≠ 0) || decide (y = b.y) || decide (x = a.x) || decide (x = b.x)) = true := by
        have : x = a.x ∨ x = b.x := by omega
        rcases this with h | h <;> simp [h]
      rw [rectBody] at h
      simp only [ht, if_true] at h
      cases hp : paint m im x 1 border with
      | error e => rw [hp] at h; simp [bind, Except.bind] at h
      | ok im1 =>
        rw [hp] at h
        simp only [ok_bind, pure_out] at h
        cases n with
        | zero => simp [rectInner] at h
        | succ n =>
          rw [rectInner, if_neg (by omega)] at h
          injection h with h
          injection h with h1 h2
          exact h1.symm
    · cases hb : rectBody m a b border fill x y im with
      | error e => rw [hb] at h; simp [bind, Except.bind] at h
      | ok r =>
        obtain ⟨y1, im1⟩ := r
        rw [hb, ok_bind] at h
        exact ih _ _ _ _ _ (by omega) h

theorem rectBody_ok (m : BlendMode) (a b : Point) (border fill : Color) (w k : Nat) (im : Image) (hr : Rect w k im) (hk : 2 ≤ k)
    (x y : Int) (hx : 0 ≤ x ∧ x < w) : ∃ y' im', rectBody m a b border fill x y im = .ok (y', im') ∧ Rect w k im' := by
  unfold rectBody
  cases (decide (a.y ≠ 0) || decide (y = b.y) || decide (x = a.x) || decide (x = b.x)) with
  | true =>
    obtain ⟨c, hc⟩ := (at_rect hr ⟨x, 1⟩).2 (by dsimp only; omega)
    obtain ⟨im1, p1, -, p3⟩ := paint_ok m im ⟨x, 1⟩ border c hc
    refine ⟨1, im1, ?_, p3 w k hr⟩
    simp only [if_true, p1, ok_bind, pure_out]
  | false =>
    obtain ⟨c, hc⟩ := (at_rect hr ⟨x, 0⟩).2 (by dsimp only; omega)
    obtain ⟨im1, p1, -, p3⟩ := paint_ok m im ⟨x, 0⟩ fill c hc
    refine ⟨0, im1, ?_, p3 w k hr⟩
    simp only [Bool.false_eq_true, if_false, p1, ok_bind, pure_out]

theorem rectInner_ok (m : BlendMode) (a b : Point) (border fill : Color) (w k : Nat) (hk : 2 ≤ k) (hw : max a.x b.x < w) :
    ∀ (n : Nat) (x y : Int) (im : Image), Rect w k im → 0 ≤ x → rectInner m a b border fill n x y im = .error .fuel ∨
      ∃ y' im', rectInner m a b border fill n x y im = .ok (y', im') ∧ Rect w k im' := by
  intro n
  induction n with
  | zero => intro x y im _ _; exact Or.inl rfl
  | succ n ih =>
    intro x y im hr hx
    rw [rectInner]
    split
    · obtain ⟨y1, im1, h1, h2⟩ := rectBody_ok m a b border fill w k im hr hk x y ⟨hx, by omega⟩
      rw [h1, ok_bind]
      exact ih (x + 1) y1 im1 h2 (by omega)
    · exact Or.inr ⟨y, im, rfl, hr⟩

/-- A call with a corner in row 2 or above never ends. -/
theorem rectOuter_diverges (m : BlendMode) (a b : Point) (border fill : Color) (w k : Nat) (hk : max a.y b.y < k) (hw : max a.x b.x < w)
    (hx : 0 ≤ min a.x b.x) (h : 2 ≤ max a.y b.y) : ∀ (n : Nat) (y : Int) (im : Image), Rect w k im →
    y ≤ max a.y b.y → rectOuter m a b border fill n y im = .error .fuel := by
  intro n
  induction n with
  | zero => intro y im _ _; rfl
  | succ n ih =>
    intro y im hr hy
    rw [rectOuter, if_pos hy]
    rcases rectInner_ok m a b border fill w k (by omega) hw n (min a.x b.x) y im hr hx with hi | ⟨y', im1, hi, hr1⟩
    · rw [hi]; rfl
    · have := rectInner_end m a b border fill n (min a.x b.x) y im y' im1 (by omega) hi
      subst this
      rw [hi, ok_bind]
      exact ih (1 + 1) im1 hr1 (by omega)

/-- The points of row 1 from column `x` on. -/
def rowOne (x : Int) : Nat → List Point
  | 0 => []
  | n + 1 => ⟨x, 1⟩ :: rowOne (x + 1) n

theorem mem_rowOne (n : Nat) : ∀ (x : Int) (q : Point), q ∈ rowOne x n ↔ x ≤ q.x ∧ q.x < x + n ∧ q.y = 1 := by
  induction n with
  | zero => intro x q; simp [rowOne]; omega
  | succ n ih =>
    intro x q
    rw [rowOne, List.mem_cons, ih]
    constructor
    · rintro (rfl | h)
      · dsimp only; omega
      · omega
    · intro h
      by_cases hx : q.x = x
      · left; cases q; simp_all
      · right; omega

theorem nodup_rowOne (n : Nat) : ∀ x : Int, (rowOne x n).Nodup := by
  induction n with
  | zero => intro x; exact List.nodup_nil
  | succ n ih =>
    intro x
    rw [rowOne, List.nodup_cons, mem_rowOne]
    exact ⟨by dsimp only; omega, ih _⟩

/-- With `a.y ≠ 0` the inner loop paints row 1 in the border colour. -/
theorem rectInner_row (m : BlendMode) (a b : Point) (border fill : Color) (ha : a.y ≠ 0) :
    ∀ (k : Nat) (n : Nat) (x y : Int) (im im' : Image), x + k = max a.x b.x + 1 → k < n → paintList m border (rowOne x k) im = .ok im' →
      rectInner m a b border fill n x y im = .ok (if k = 0 then y else 1, im') := by
  intro k
  induction k with
  | zero =>
    intro n x y im im' hx hn h
    obtain ⟨n, rfl⟩ : ∃ l, n = l + 1 := ⟨n - 1, by omega⟩
    rw [rowOne, paintList] at h
    injection h with h
    rw [rectInner, if_neg (by omega), if_pos rfl, h]
  | succ k ih =>
    intro n x y im im' hx hn h
    obtain ⟨n, rfl⟩ : ∃ l, n = l + 1 := ⟨n - 1, by omega⟩
    rw [rowOne, paintList] at h
    cases hp : paint m im x 1 border with
    | error e => rw [hp] at h; simp [bind, Except.bind] at h
    | ok im1 =>
      rw [hp, ok_bind] at h
      have ht : (decide (a.y ≠ 0) || decide (y = b.y) || decide (x = a.x) || decide (x = b.x)) = true := by simp [ha]
      rw [rectInner, if_pos (by omega), rectBody]
      simp only [ht, if_true, hp, ok_bind, pure_out]
      rw [ih n (x + 1) 1 im1 im' (by omega) (by omega) h]
      simp

/-- Both corners in row 1: the call paints the rectangle. -/
theorem fillRectangle_row (m : BlendMode) (im : Image) (w k : Nat) (hr : Rect w k im) (a b : Point) (border fill : Color)
    (ha : 0 ≤ a.x ∧ a.x < w ∧ a.y = 1) (hb : 0 ≤ b.x ∧ b.x < w ∧ b.y = 1) (hk : 2 ≤ k) :
    ∃ im', Painted m border (InRect a b) im im' ∧ Rect w k im' ∧
      ∀ fuel : Nat, |b.x - a.x| + 2 < (fuel : Int) → fillRectangle fuel m im a b border fill = .ok im' := by
  have hmem : ∀ q, q ∈ rowOne (min a.x b.x) (max a.x b.x - min a.x b.x + 1).toNat ↔ InRect a b q := by
    intro q
    rw [mem_rowOne, InRect]
    omega
  obtain ⟨im', p1, p2, p3⟩ := paintList_ok m border (rowOne (min a.x b.x) (max a.x b.x - min a.x b.x + 1).toNat) im (nodup_rowOne _ _) (by
    intro q hq
    rw [at_rect hr]
    rw [mem_rowOne] at hq
    omega)
  refine ⟨im', ?_, p3 w k hr, ?_⟩
  · intro q
    exact ⟨fun h => (p2 q).1 ((hmem q).2 h), fun h => (p2 q).2 (fun h' => h ((hmem q).1 h'))⟩
  · intro fuel hf
    have habs : |b.x - a.x| = max a.x b.x - min a.x b.x := by
      rcases abs_cases (b.x - a.x) with ⟨e, _⟩ | ⟨e, _⟩ <;> rw [e] <;> omega
    obtain ⟨n, rfl⟩ : ∃ l, fuel = l + 1 := ⟨fuel - 1, by omega⟩
    unfold fillRectangle
    rw [rectOuter, if_pos (by omega), rectInner_row m a b border fill (by omega) _ n (min a.x b.x) (min a.y b.y) im im' (by omega) (by omega) p1, ok_bind]
    rw [if_neg (by omega)]
    obtain ⟨n, rfl⟩ : ∃ l, n = l + 1 := ⟨n - 1, by omega⟩
    simp only []
    rw [rectOuter, if_neg (by omega)]

end ICPC.Png
