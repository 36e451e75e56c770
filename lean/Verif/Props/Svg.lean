import Verif.Lemmas.Svg
import Verif.Lemmas.PngColor

/-!
# C66: the bounding box of the SVG visualizer, and its colours (C65)
-/

namespace ICPC.Props

open ICPC ICPC.Svg Spec.SvgFormat Spec.PngFormat

/-- **C66, contains.** After any sequence of shapes the `viewBox` contains everything that is shown of them. -/
theorem C66_contains (shapes : List Shape) (sh : Shape) (hsh : sh ∈ shapes) (p : Svg.Point) (hp : Covers sh p ∨ p ∈ extreme sh) :
    InView (Box.drawAll shapes).viewBox (shown p) := by
  rw [inView_iff]
  rcases hp with hp | hp
  · exact has_covers (fun q hq => drawAll_has shapes sh hsh q hq) hp
  · exact drawAll_has shapes sh hsh p hp

/-- **C66, initial box.** It contains the origin, which is the initial box. -/
theorem C66_initial (shapes : List Shape) : InView (Box.drawAll shapes).viewBox (shown ⟨0, 0⟩) := by
  rw [inView_iff, drawAll_eq]
  refine (fold_spec _ _ ok_new).2.2.1 _ ?_
  refine ⟨?_, ?_, ?_, ?_⟩ <;> decide +kernel

/-- **C66, smallest.** Every box that contains the origin and the extreme points of all shapes contains the `viewBox`. -/
theorem C66_smallest (shapes : List Shape) (v : Rat × Rat × Rat × Rat) (h0 : InView v (shown ⟨0, 0⟩))
    (h : ∀ sh ∈ shapes, ∀ p ∈ extreme sh, InView v (shown p)) (q : Svg.Point) (hq : InView (Box.drawAll shapes).viewBox q) : InView v q := by
  obtain ⟨l, t, w, hh⟩ := v
  have hw := drawAll_least shapes l (l + w) (-(t + hh)) (-t)
    (by obtain ⟨a1, a2, a3, a4⟩ := h0
        dsimp only [shown] at a1 a2 a3 a4
        refine ⟨a1, a2, ?_, ?_⟩ <;> linarith)
    (by intro sh hsh p hp
        obtain ⟨a1, a2, a3, a4⟩ := h sh hsh p hp
        dsimp only [shown] at a1 a2 a3 a4
        refine ⟨a1, a2, ?_, ?_⟩ <;> linarith)
  have hq' : InView (Box.drawAll shapes).viewBox (shown ⟨q.x, -q.y⟩) := by simpa [shown] using hq
  rw [inView_iff] at hq'
  obtain ⟨a1, a2, a3, a4⟩ := hq'
  obtain ⟨w1, w2, w3, w4⟩ := hw
  dsimp only at a1 a2 a3 a4 w1 w2 w3 w4
  refine ⟨?_, ?_, ?_, ?_⟩ <;> dsimp only <;> linarith

/-- **C66, order.** The `viewBox` does not depend on the order of the shapes: two sequences of the same shapes show the same area. -/
theorem C66_order (shapes shapes' : List Shape) (h : ∀ sh, sh ∈ shapes ↔ sh ∈ shapes') (q : Svg.Point) :
    InView (Box.drawAll shapes).viewBox q ↔ InView (Box.drawAll shapes').viewBox q :=
  ⟨C66_smallest shapes _ (C66_initial _) (fun sh hsh p hp => C66_contains shapes' sh ((h sh).1 hsh) p (Or.inr hp)) q,
    C66_smallest shapes' _ (C66_initial _) (fun sh hsh p hp => C66_contains shapes sh ((h sh).2 hsh) p (Or.inr hp)) q⟩

/-- Left, top, width and height for a circle and a line. -/
example : (Box.drawAll [.circle ⟨3, 4⟩ 2, .line ⟨-1, 7⟩ ⟨2, -5⟩]).viewBox = (-1, -7, 6, 12) := by decide +kernel

/-- **C65, colours of the SVG visualizer.** -/
theorem C65_svg_add (a b : Svg.Color) : (a.add b).r.toNat = min 255 (a.r.toNat + b.r.toNat) ∧
    (a.add b).g.toNat = min 255 (a.g.toNat + b.g.toNat) ∧ (a.add b).b.toNat = min 255 (a.b.toNat + b.b.toNat) := by
  have key : ∀ x y : Png.Byte, (Png.clampColor ((x.toNat : Int) + y.toNat)).toNat = min 255 (x.toNat + y.toNat) := by
    intro x y
    have := Png.clampColor_toNat ((x.toNat : Int) + y.toNat)
    omega
  exact ⟨key _ _, key _ _, key _ _⟩

/-- **C65, scaling in the SVG visualizer.** -/
theorem C65_svg_scale (c : Svg.Color) (f : Rat) (hf : |f| ≤ 2 ^ 54) : ∃ d, c.scale f = .ok d ∧ NearestByte (c.r.toNat * f) d.r ∧
    NearestByte (c.g.toNat * f) d.g ∧ NearestByte (c.b.toNat * f) d.b := by
  obtain ⟨r, h1, h2⟩ := Png.clampReal_near (Png.channel_bound c.r hf)
  obtain ⟨g, h3, h4⟩ := Png.clampReal_near (Png.channel_bound c.g hf)
  obtain ⟨b, h5, h6⟩ := Png.clampReal_near (Png.channel_bound c.b hf)
  refine ⟨⟨r, g, b⟩, ?_, h2, h4, h6⟩
  unfold Svg.Color.scale
  rw [h1, ok_bind, h3, ok_bind, h5, ok_bind, pure_out]

/-- **C65, interpolation in the SVG visualizer.** -/
theorem C65_svg_lerp (a b : Svg.Color) (f : Rat) (h0 : 0 ≤ f) (h1 : f ≤ 1) : ∃ c, Svg.lerp a b f = .ok c ∧
    ∀ ch ∈ [Svg.Color.r, Svg.Color.g, Svg.Color.b], |((ch c).toNat : Rat) - ((ch a).toNat * f + (ch b).toNat * (1 - f))| ≤ 1 := by
  have k : ∀ (x : Png.Byte) (f : Rat), |f| ≤ 2 ^ 54 → Png.clampReal (x.toNat * f) = .ok (Png.clampColor (Png.roundAway (x.toNat * f))) :=
    fun x f hf => Png.clampReal_eq (Png.channel_bound x hf)
  have f1 : |f| ≤ 2 ^ 54 := by rw [abs_of_nonneg h0]; linarith
  have f2 : |1 - f| ≤ 2 ^ 54 := by rw [abs_of_nonneg (by linarith)]; linarith
  have e1 : a.scale f = .ok ⟨Png.clampColor (Png.roundAway (a.r.toNat * f)), Png.clampColor (Png.roundAway (a.g.toNat * f)),
      Png.clampColor (Png.roundAway (a.b.toNat * f))⟩ := by
    unfold Svg.Color.scale
    rw [k a.r f f1, k a.g f f1, k a.b f f1]
    rfl
  have e2 : b.scale (1 - f) = .ok ⟨Png.clampColor (Png.roundAway (b.r.toNat * (1 - f))), Png.clampColor (Png.roundAway (b.g.toNat * (1 - f))),
      Png.clampColor (Png.roundAway (b.b.toNat * (1 - f)))⟩ := by
    unfold Svg.Color.scale
    rw [k b.r _ f2, k b.g _ f2, k b.b _ f2]
    rfl
  refine ⟨_, show Svg.lerp a b f = .ok _ from by
    unfold Svg.lerp
    rw [decide_eq_true h0, decide_eq_true h1, Bool.and_true, judgeAssert_true, ok_bind, e1, ok_bind, e2, ok_bind, pure_out], ?_⟩
  intro ch hch
  simp only [List.mem_cons, List.not_mem_nil, or_false] at hch
  rcases hch with rfl | rfl | rfl <;> exact Png.lerp_channel _ _ h0 h1

/-- **C65, colours as text.** A colour is written as `#rrggbb` with two hexadecimal digits for each channel. -/
theorem C65_svg_print (c : Svg.Color) : parseColor c.print = some c := parse_print c

example : (Svg.Color.print ⟨0x0a, 0xff, 0x00⟩) = "#0aff00".toList := by decide +kernel

end ICPC.Props
