import Verif.Model.ConvexDisk
import Verif.Props.ConvexHull
import Verif.Props.Shuffle

/-!
# C102: `Random::convexDisk` of archive/convex.cpp
-/

namespace ICPC.Props

open Spec Archive

variable {α β : Type}

/-- All values returned have the property. -/
def Values (r : Rand α) (P : α → Prop) : Prop := Sat r fun o => ∀ a, o = .ok a → P a

theorem values_lift {o : Out α} {P : α → Prop} (h : ∀ a, o = .ok a → P a) : Values (Rand.lift o) P := h

theorem values_pure {a : α} {P : α → Prop} (h : P a) : Values (pure a : Rand α) P := by
  intro b e
  cases e
  exact h

theorem values_bind {r : Rand α} {f : α → Rand β} {P : α → Prop} {Q : β → Prop} (h : Values r P) (hf : ∀ a, P a → Values (f a) Q) : Values (r >>= f) Q :=
  Sat.bind h (fun a ha => hf a (ha a rfl)) fun e _ a h => by cases h

theorem values_lift_bind {o : Out α} {f : α → Rand β} {Q : β → Prop} (hf : ∀ a, o = .ok a → Values (f a) Q) : Values (Rand.lift o >>= f) Q :=
  values_bind (values_lift fun _ h => h) hf

theorem values_integer (l u : Int) : Values (integer l u) fun _ => True := by
  unfold integer
  split_ifs with h h'
  · exact ⟨h.1, h.2, h', fun _ _ _ _ _ => trivial⟩
  · exact fun _ _ => trivial
  · exact fun _ _ => trivial

theorem swapAt_values {l l' : List α} {i j : Nat} (h : swapAt l i j = .ok l') : l'.Perm l := by
  by_cases hi : i < l.length
  · by_cases hj : j < l.length
    · rw [swapAt_ok hi hj] at h
      cases h
      exact swap_perm hi hj
    · unfold swapAt at h
      rw [List.getElem?_eq_none (l := l) (i := j) (by omega)] at h
      split at h
      · rename_i h1 h2; cases h2
      · cases h
  · unfold swapAt at h
    rw [List.getElem?_eq_none (l := l) (i := i) (by omega)] at h
    cases h

theorem values_shuffle (l : List α) : Values (shuffle l) fun l' => l'.Perm l := by
  have key : ∀ n (l : List α), Values (shuffleLoop n l) fun l' => l'.Perm l := by
    intro n
    induction n with
    | zero => intro l; exact values_pure (List.Perm.refl _)
    | succ n ih =>
      intro l
      rw [shuffleLoop]
      refine values_bind (values_integer _ _) fun v _ => values_lift_bind fun l' hl' => ?_
      exact Sat.mono (ih l') fun o ho a e => (ho a e).trans (swapAt_values hl')
  exact key _ l

/-- In the open disk of squared radius `R`. -/
def InDisk (R : Int) (p : Pt) : Prop := p.1 * p.1 + p.2 * p.2 < R

theorem inDisk_small {D : Int} (hD : D ≤ 1073741823) (hD0 : 0 ≤ D) {p : Pt} (h : InDisk (D * D) p) : SmallPt p := by
  unfold InDisk at h
  have key : ∀ x y : Int, x * x + y * y < D * D → -1073741823 ≤ x ∧ x ≤ 1073741823 := by
    intro x y hxy
    have : 0 ≤ y * y := mul_self_nonneg y
    constructor <;> nlinarith
  exact ⟨key p.1 p.2 h, key p.2 p.1 (by rw [add_comm]; exact h)⟩

theorem values_sampleRing {candidate : Int → Rand Pt} (hc : ∀ r, Values (candidate r) fun _ => True) (R r : Int) : ∀ f,
    Values (sampleRing candidate R r f) (InDisk R)
  | 0 => values_lift fun a h => by cases h
  | f + 1 => by
    rw [sampleRing]
    refine values_bind (hc r) fun p _ => values_lift_bind fun x hx => values_lift_bind fun y hy => values_lift_bind fun d hd => ?_
    have hx' := (chk_eq_ok.1 hx).2
    have hy' := (chk_eq_ok.1 hy).2
    have hd' := (chk_eq_ok.1 hd).2
    split
    · rename_i h
      refine values_pure ?_
      unfold InDisk
      rw [← hx', ← hy', ← hd']
      exact h.2
    · exact values_sampleRing hc R r f

theorem values_samples {sample : Rand Pt} {P : Pt → Prop} (hs : Values sample P) : ∀ n res, (∀ p ∈ res, P p) →
    Values (samples sample n res) fun l => ∀ p ∈ l, P p
  | 0, res, h => values_pure h
  | n + 1, res, h => by
    rw [samples]
    refine values_bind hs fun p hp => values_samples hs n _ fun q hq => ?_
    rcases List.mem_append.1 hq with hq | hq
    · exact h q hq
    · rw [List.mem_singleton.1 hq]; exact hp

theorem hull_sub {pts h : List Pt} (hs : SmallCoordinates pts) (hr : convexHull pts = .ok h) : ∀ p ∈ h, p ∈ pts := by
  by_cases h2 : ∃ a ∈ pts, ∃ b ∈ pts, a ≠ b
  · obtain ⟨h', hr', hsur⟩ := C101_surrounds pts hs h2
    rw [hr] at hr'
    cases hr'
    exact hsur.1
  · push Not at h2
    cases pts with
    | nil =>
      cases hr
      intro p hp
      exact hp
    | cons x l =>
      have : x :: l = List.replicate (l.length + 1) x := by
        rw [List.eq_replicate_iff]
        exact ⟨rfl, fun b hb => h2 b hb x (by simp)⟩
      rw [this, (C101_single x l.length).1] at hr
      cases hr
      intro p hp
      simpa using Or.inl (List.mem_singleton.1 hp)

/-- What the loop returns: a hull without its last point. -/
theorem values_diskLoop {candidate : Int → Rand Pt} (hc : ∀ r, Values (candidate r) fun _ => True) {n D : Int} (hD : D ≤ 1073741823) (hD0 : 0 ≤ D) :
    ∀ f res, (∀ p ∈ res, InDisk (D * D) p) → Values (diskLoop candidate n (D * D) f res) fun l =>
      toU64 n < l.length ∧ ∃ pts h, (∀ p ∈ pts, InDisk (D * D) p) ∧ convexHull pts = .ok h ∧ l = h.dropLast
  | 0, res, _ => values_lift fun a h => by cases h
  | f + 1, res, hres => by
    rw [diskLoop]
    refine values_lift_bind fun r _ => values_bind (values_samples (values_sampleRing hc (D * D) r (f + 1)) _ _ hres) fun pts hpts => ?_
    refine values_lift_bind fun h hh => values_lift_bind fun l hl => ?_
    have hl' : l = h.dropLast := by
      unfold popBack at hl
      split at hl
      · cases hl
      · cases hl; rfl
    split
    · refine values_diskLoop hc hD hD0 f l fun p hp => hpts p ?_
      rw [hl'] at hp
      exact hull_sub (fun p hp => inDisk_small hD hD0 (hpts p hp)) hh p (List.dropLast_subset _ hp)
    · rename_i hlen
      exact values_pure ⟨by omega, pts, h, hpts, hh, hl'⟩

theorem values_convexDisk {candidate : Int → Rand Pt} (hc : ∀ r, Values (candidate r) fun _ => True) (fuel : Nat) {n dim : Int} (hn : 1 ≤ n) (hdim : 1 ≤ dim) :
    Values (convexDisk candidate fuel n dim) fun h' => ∃ pts h l : List Pt, (∀ p ∈ pts, InDisk (dim * dim) p) ∧ SmallCoordinates pts ∧ convexHull pts = .ok h ∧ l.Perm h.dropLast.dropLast ∧
      n.toNat ≤ l.length ∧ convexHull (l.take n.toNat) = .ok h' := by
  unfold convexDisk
  refine values_lift_bind fun _ h0 => values_lift_bind fun n2 hn2 => values_lift_bind fun _ h1 => values_lift_bind fun d hd => ?_
  obtain ⟨-, rfl⟩ := chk_eq_ok.1 hd
  obtain ⟨hn2', rfl⟩ := chk_eq_ok.1 hn2
  have hD : dim ≤ 1073741823 := by
    unfold judgeAssert at h0
    split at h0
    · rename_i h; simpa using h
    · cases h0
  have hn64 : n < 2 ^ 63 := by
    have := hn2'.2
    have : n ≤ n * n := by nlinarith
    omega
  refine values_bind (values_diskLoop hc hD (by omega) fuel _ ?_) fun l ⟨hlen, pts, h, hpts, hh, hl⟩ => ?_
  · intro p hp
    rw [List.mem_singleton.1 hp]
    unfold InDisk
    nlinarith
  refine values_lift_bind fun l' hl' => values_bind (values_shuffle l') fun l'' hp => values_lift fun h' hr => ?_
  have hl2 : l' = h.dropLast.dropLast := by
    unfold popBack at hl'
    split at hl'
    · cases hl'
    · cases hl'; rw [hl]
  have hlen'' : n.toNat ≤ l''.length := by
    rw [toU64_nonneg (by omega) (by omega), hl] at hlen
    rw [hp.length_eq, hl2, List.length_dropLast]
    omega
  refine ⟨pts, h, l'', hpts, fun p hp => inDisk_small hD (by omega) (hpts p hp), hh, hl2 ▸ hp, hlen'', ?_⟩
  unfold resize at hr
  rwa [show n.toNat - l''.length = 0 by omega, List.replicate_zero, List.append_nil] at hr

/-- **C102.** Every result whose points are not on one line is a convex polygon with `n` different vertices in the disk, followed by its first vertex once
more: there are `n + 1` points. -/
theorem C102_result (candidate : Int → Rand Pt) (hc : ∀ r, Values (candidate r) fun _ => True) (fuel : Nat) (n dim : Int) (hn : 1 ≤ n) (hdim : 1 ≤ dim) :
    Sat (convexDisk candidate fuel n dim) fun o => ∀ h, o = .ok h → ¬Collinear h →
      ∃ v p0, h = v ++ [p0] ∧ v.head? = some p0 ∧ (v.length : Int) = n ∧ ConvexPolygon v ∧ v.Nodup ∧ ∀ p ∈ v, p.1 * p.1 + p.2 * p.2 < dim * dim := by
  refine Sat.mono (values_convexDisk hc fuel hn hdim) fun o ho h' e hnc => ?_
  obtain ⟨pts, h, l, hdisk, hs, hh, hp, hlen, hr⟩ := ho h' e
  have hsub1 : ∀ p ∈ l.take n.toNat, p ∈ h := fun p hp' =>
    List.dropLast_subset _ (List.dropLast_subset _ (hp.subset (List.take_subset _ _ hp')))
  have hsub2 : ∀ p ∈ l.take n.toNat, p ∈ pts := fun p hp' => hull_sub hs hh p (hsub1 p hp')
  have hs' : SmallCoordinates (l.take n.toNat) := fun p hp' => hs p (hsub2 p hp')
  have hncQ : ¬Collinear (l.take n.toNat) := fun hcol => hnc fun a ha b hb c hc' =>
    hcol a (hull_sub hs' hr a ha) b (hull_sub hs' hr b hb) c (hull_sub hs' hr c hc')
  have hncP : ¬Collinear pts := fun hcol => hncQ fun a ha b hb c hc' => hcol a (hsub2 a ha) b (hsub2 b hb) c (hsub2 c hc')
  obtain ⟨v, p0, hv, -, hvn, -, -, hvb⟩ := C101_polygon pts hs hncP
  rw [hh] at hv
  cases hv
  obtain ⟨v', p0', hv', hcv, hvn', hhd, -, hvb'⟩ := C101_polygon _ hs' hncQ
  rw [hr] at hv'
  cases hv'
  rw [List.dropLast_concat] at hp
  have hlnd : (l.take n.toNat).Nodup := ((hp.nodup_iff).2 (hvn.sublist (List.dropLast_sublist _))).sublist (List.take_sublist _ _)
  have hperm : v'.Perm (l.take n.toNat) := by
    rw [List.perm_ext_iff_of_nodup hvn' hlnd]
    intro p
    rw [hvb' p]
    refine ⟨fun h => h.1, fun h => ⟨h, ?_⟩⟩
    have hpv : p ∈ v := List.dropLast_subset _ (hp.subset (List.take_subset _ _ h))
    obtain ⟨d, hd, hall⟩ := ((hvb p).1 hpv).2
    exact ⟨d, hd, fun q hq => hall q (hsub2 q hq)⟩
  refine ⟨v', p0', rfl, hhd, ?_, hcv, hvn', fun p hp' => hdisk p (hsub2 p (hperm.subset hp'))⟩
  rw [hperm.length_eq, List.length_take, min_eq_left hlen]
  omega

/-- **C102.** Every result with at least two points ends with its first point. -/
theorem C102_first_again (candidate : Int → Rand Pt) (hc : ∀ r, Values (candidate r) fun _ => True) (fuel : Nat) (n dim : Int) (hn : 1 ≤ n) (hdim : 1 ≤ dim) :
    Sat (convexDisk candidate fuel n dim) fun o => ∀ h, o = .ok h → 2 ≤ h.length → h.head? = h.getLast? := by
  refine Sat.mono (values_convexDisk hc fuel hn hdim) fun o ho h' e h2 => ?_
  obtain ⟨pts, h, l, -, hs, hh, hp, hlen, hr⟩ := ho h' e
  have hsub : ∀ p ∈ l.take n.toNat, p ∈ pts := fun p hp' =>
    hull_sub hs hh p (List.dropLast_subset _ (List.dropLast_subset _ (hp.subset (List.take_subset _ _ hp'))))
  have hs' : SmallCoordinates (l.take n.toNat) := fun p hp' => hs p (hsub p hp')
  by_cases hd : ∃ a ∈ l.take n.toNat, ∃ b ∈ l.take n.toNat, a ≠ b
  · obtain ⟨h'', hr'', hsur⟩ := C101_surrounds _ hs' hd
    rw [hr] at hr''
    cases hr''
    exact hsur.2.1
  · push Not at hd
    exfalso
    generalize l.take n.toNat = Q at *
    cases Q with
    | nil =>
      cases hr
      simp at h2
    | cons x Q =>
      have : x :: Q = List.replicate (Q.length + 1) x := by
        rw [List.eq_replicate_iff]
        exact ⟨rfl, fun b hb => hd b hb x (by simp)⟩
      rw [this, (C101_single x Q.length).1] at hr
      cases hr
      simp at h2

/-- Candidates that are integer points of a square. -/
def squareCandidate (_ : Int) : Rand Pt := do
  let x ← integer (-3) 4
  let y ← integer (-3) 4
  pure (x, y)

theorem squareCandidate_values (r : Int) : Values (squareCandidate r) fun _ => True :=
  values_bind (values_integer _ _) fun _ _ => values_bind (values_integer _ _) fun _ _ => values_pure trivial

/-- **C102 refuted.** A call for three points returns four, the last of which is the first. -/
theorem C102_count_refuted : ∃ words h, (convexDisk squareCandidate 5 3 4).run true words = some (.ok h, []) ∧ h.length = 4 ∧ h[0]? = h[3]? :=
  ⟨[17129119497016012214, 9223372036854775808, 9223372036854775808, 17129119497016012214, 1317624576693539401, 6588122883467697005, 1317624576693539401, 14493870343628933412, 14493870343628933412, 17129119497016012214, 17129119497016012214, 3952873730080618203, 1844674407370955161, 2305843009213693952, 3074457345618258602, 4611686018427387904], [(2, 3), (3, -2), (3, 0), (2, 3)], by unfold convexDisk squareCandidate; decide +kernel, rfl, rfl⟩

end ICPC.Props
