import Verif.Lemmas.Families
import Verif.Lemmas.GraphOps5
import Verif.Spec.Families
import Mathlib.Data.Nat.Bitwise
import Mathlib.Tactic.LinearCombination

/-!
# Hypercubes, complete trees, boolean lattices and the Rado graph
-/

namespace ICPC.Gen

open ICPC ICPC.Spec.EdgeMap ICPC.Spec.Family ICPC.Props

variable {E : Type} [Inhabited E] {g : Graph E} {dir : Bool} {lo : Int} {n : Nat} {m : Map E}

/-! ## Bits -/

theorem two_pow_add_xor {n a : Nat} (h : a < 2 ^ n) : 2 ^ n + a = 2 ^ n ^^^ a := by
  have := Nat.two_pow_add_eq_or_of_lt h 1
  rw [mul_one] at this
  rw [this]
  apply Nat.eq_of_testBit_eq
  intro i
  rw [Nat.testBit_or, Nat.testBit_xor, Nat.testBit_two_pow]
  by_cases hi : n = i
  · subst hi; simp [Nat.testBit_lt_two_pow h]
  · simp [hi]

theorem cubeEdge_iff (d : Nat) (u v : Int) : CubeEdge d u v ↔ ∃ x k : Nat, u = x ∧ v = ((x ^^^ 2 ^ k : Nat) : Int) ∧ x < 2 ^ d ∧ k < d := by
  unfold CubeEdge
  constructor
  · rintro ⟨x, y, k, rfl, rfl, hx, hy, hk, hb⟩
    refine ⟨x, k, rfl, ?_, hx, hk⟩
    congr 1
    apply Nat.eq_of_testBit_eq
    intro i
    rw [Nat.testBit_xor, Nat.testBit_two_pow]
    have := hb i
    by_cases hi : i = k
    · subst hi
      have := this.2 rfl
      cases h1 : x.testBit i <;> cases h2 : y.testBit i <;> simp_all
    · have hn : ¬ (x.testBit i ≠ y.testBit i) := fun h => hi (this.1 h)
      rw [decide_eq_false fun h => hi h.symm, Bool.xor_false]
      exact (not_not.1 hn).symm
  · rintro ⟨x, k, rfl, rfl, hx, hk⟩
    refine ⟨x, x ^^^ 2 ^ k, k, rfl, rfl, hx, Nat.xor_lt_two_pow hx (Nat.pow_lt_pow_right (by omega) hk), hk, ?_⟩
    intro i
    rw [Nat.testBit_xor, Nat.testBit_two_pow]
    by_cases hi : k = i
    · subst hi; simp
    · simp [hi]; omega

theorem cubeEdge_symm {d : Nat} {u v : Int} (h : CubeEdge d u v) : CubeEdge d v u := by
  obtain ⟨x, y, k, h1, h2, h3, h4, h5, h6⟩ := h
  exact ⟨y, x, k, h2, h1, h4, h3, h5, fun i => by rw [← h6 i]; exact ne_comm⟩

theorem cube_isSome (d : Nat) (u v : Int) : (ofRel false (CubeEdge d) u v : Option E).isSome ↔ CubeEdge d u v := by
  rw [ofRel_isSome]
  constructor
  · rintro (h | ⟨-, h⟩)
    · exact h
    · exact cubeEdge_symm h
  · exact Or.inl

/-- Splitting off the highest bit. -/
theorem cube_split {n a b c d : Nat} (ha : a < 2 ^ n) (hc : c < 2 ^ n) (hb : b < 2) (hd : d < 2) :
    CubeEdge (n + 1) ((b * 2 ^ n + a : Nat) : Int) ((d * 2 ^ n + c : Nat) : Int) ↔ (a = c ∧ b ≠ d) ∨ (b = d ∧ CubeEdge n a c) := by
  have hlt : ∀ b a : Nat, b < 2 → a < 2 ^ n → b * 2 ^ n + a < 2 ^ (n + 1) := by
    intro b a hb ha
    rw [Nat.pow_succ]
    have : b * 2 ^ n ≤ 1 * 2 ^ n := Nat.mul_le_mul_right _ (by omega)
    omega
  have hx : ∀ b a : Nat, b < 2 → a < 2 ^ n → b * 2 ^ n + a = (b * 2 ^ n) ^^^ a := by
    intro b a hb ha
    have : b = 0 ∨ b = 1 := by omega
    rcases this with rfl | rfl
    · simp
    · rw [one_mul]; exact two_pow_add_xor ha
  have htop : ∀ b : Nat, b < 2 → (b * 2 ^ n) ^^^ 2 ^ n = (1 - b) * 2 ^ n := by
    intro b hb
    have : b = 0 ∨ b = 1 := by omega
    rcases this with rfl | rfl <;> simp
  have huniq : ∀ b a b' a' : Nat, a < 2 ^ n → a' < 2 ^ n → b * 2 ^ n + a = b' * 2 ^ n + a' → b = b' ∧ a = a' := by
    intro b a b' a' ha ha' h
    have h1 := congrArg (· % 2 ^ n) h
    simp only [Nat.mul_add_mod_self_right, Nat.mod_eq_of_lt ha, Nat.mod_eq_of_lt ha'] at h1
    subst h1
    have h2 : b * 2 ^ n = b' * 2 ^ n := by omega
    exact ⟨Nat.eq_of_mul_eq_mul_right (Nat.two_pow_pos n) h2, rfl⟩
  rw [cubeEdge_iff, cubeEdge_iff]
  constructor
  · rintro ⟨x, k, h1, h2, h3, h4⟩
    have h1 : b * 2 ^ n + a = x := by exact_mod_cast h1
    have h2 : d * 2 ^ n + c = x ^^^ 2 ^ k := by exact_mod_cast h2
    subst h1
    by_cases hk : k = n
    · subst hk
      left
      rw [hx b a hb ha, Nat.xor_assoc, Nat.xor_comm a, ← Nat.xor_assoc, htop b hb, ← hx (1 - b) a (by omega) ha] at h2
      obtain ⟨e1, e2⟩ := huniq _ _ _ _ hc ha h2
      omega
    · right
      have hk' : 2 ^ k < 2 ^ n := Nat.pow_lt_pow_right (by omega) (by omega)
      rw [hx b a hb ha, Nat.xor_assoc, ← hx b _ hb (Nat.xor_lt_two_pow ha hk')] at h2
      obtain ⟨e1, e2⟩ := huniq _ _ _ _ hc (Nat.xor_lt_two_pow ha hk') h2
      exact ⟨e1.symm, a, k, rfl, by rw [e2], ha, by omega⟩
  · rintro (⟨rfl, hne⟩ | ⟨rfl, x, k, h1, h2, h3, h4⟩)
    · refine ⟨b * 2 ^ n + a, n, rfl, ?_, hlt b a hb ha, by omega⟩
      rw [hx b a hb ha, Nat.xor_assoc, Nat.xor_comm a, ← Nat.xor_assoc, htop b hb, ← hx (1 - b) a (by omega) ha]
      rw [show 1 - b = d from by omega]
    · have h1 : a = x := by exact_mod_cast h1
      have h2 : c = x ^^^ 2 ^ k := by exact_mod_cast h2
      subst h1
      refine ⟨b * 2 ^ n + a, k, rfl, ?_, hlt b a hb ha, by omega⟩
      rw [hx b a hb ha, Nat.xor_assoc, ← h2, ← hx b c hb hc]

theorem hypercube_good : ∀ d : Nat, d < 63 → ∃ g : Graph E, hypercubeN d = .ok g ∧ Good g false 0 (2 ^ d) (ofRel false (CubeEdge d))
  | 0, _ => by
    obtain ⟨g, h1, h2⟩ := clique_good (E := E) (dir := false) (n := 1) (by decide)
    refine ⟨g, h1, ?_⟩
    rw [pow_zero, ofRel_congr]
    · exact h2
    · intro u v
      rw [cubeEdge_iff]
      constructor
      · rintro ⟨x, k, -, -, -, h⟩; omega
      · intro h; push_cast at h; omega
  | 1, _ => by
    obtain ⟨g, h1, h2⟩ := clique_good (E := E) (dir := false) (n := 2) (by decide)
    refine ⟨g, h1, ?_⟩
    rw [pow_one, map_ext (m' := ofRel false _) _ ofRel_default ofRel_default]
    · exact h2
    · intro u v
      rw [cube_isSome, ofRel_isSome]
      have := cube_split (n := 0) (a := 0) (c := 0) (b := u.toNat % 2) (d := v.toNat % 2) (by omega) (by omega) (by omega) (by omega)
      simp only [pow_zero, mul_one, zero_add, add_zero] at this
      constructor
      · intro h
        have hh := h
        obtain ⟨x, y, k, rfl, rfl, hx, hy, -, -⟩ := hh
        rw [pow_one] at hx hy
        rw [Int.toNat_natCast, Int.toNat_natCast, Nat.mod_eq_of_lt hx, Nat.mod_eq_of_lt hy] at this
        rcases this.1 h with ⟨-, hne⟩ | ⟨-, x, y, k, -, -, -, -, hk, -⟩
        · simp only [true_and]; push_cast; omega
        · omega
      · intro h
        simp only [true_and] at h
        push_cast at h
        have hu : u = ((u.toNat % 2 : Nat) : Int) := by omega
        have hv : v = ((v.toNat % 2 : Nat) : Int) := by omega
        rw [hu, hv]
        exact this.2 (Or.inl ⟨trivial, by omega⟩)
  | d + 2, hd => by
    obtain ⟨h, h1, h2⟩ := hypercube_good (d + 1) (by omega)
    obtain ⟨c, c1, c2⟩ := clique_good (E := E) (dir := false) (n := 2) (by decide)
    have hfit : I64 (((2 ^ (d + 1) : Nat) : Int) * ((2 : Nat) : Int)) := by
      have : 2 ^ (d + 2) ≤ 2 ^ 62 := Nat.pow_le_pow_right (by omega) (by omega)
      have e : ((2 ^ (d + 1) : Nat) : Int) * ((2 : Nat) : Int) = ((2 ^ (d + 2) : Nat) : Int) := by push_cast; ring
      rw [e]
      generalize 2 ^ (d + 2) = T at this ⊢
      unfold I64
      omega
    obtain ⟨g, g1, g2⟩ := h2.cartesian c2 hfit
    refine ⟨g, ?_, ?_⟩
    · unfold hypercubeN
      have c1' : clique false 2 = .ok c := c1
      rw [h1, ok_bind, c1', ok_bind, g1]
    · rw [show 2 ^ (d + 2) = 2 ^ (d + 1) * 2 from Nat.pow_succ ..]
      rw [map_ext (m' := cart 0 (2 ^ (d + 1)) 0 2 _ _) _ ofRel_default (cart_default _ _ _ _ _ _)]
      · exact g2
      set N := d + 1 with hN
      intro u v
      rw [cube_isSome, cart_isSome]
      simp only [cube_isSome]
      simp only [ofRel_isSome, true_and]
      unfold pairId In
      simp only [sub_zero, zero_add]
      constructor
      · intro hc
        have hcc := hc
        obtain ⟨x, y, k, rfl, rfl, hx, hy, -, -⟩ := hcc
        have ex : x / 2 ^ N * 2 ^ N + x % 2 ^ N = x := Nat.div_add_mod' x _
        have ey : y / 2 ^ N * 2 ^ N + y % 2 ^ N = y := Nat.div_add_mod' y _
        have hb : x / 2 ^ N < 2 := Nat.div_lt_of_lt_mul (by rw [← Nat.pow_succ]; exact hx)
        have hd : y / 2 ^ N < 2 := Nat.div_lt_of_lt_mul (by rw [← Nat.pow_succ]; exact hy)
        have ha : x % 2 ^ N < 2 ^ N := Nat.mod_lt _ (Nat.two_pow_pos _)
        have hc' : y % 2 ^ N < 2 ^ N := Nat.mod_lt _ (Nat.two_pow_pos _)
        have := cube_split ha hc' hb hd
        rw [ex, ey] at this
        generalize hqx : x / 2 ^ N = qx at *
        generalize hqy : y / 2 ^ N = qy at *
        generalize hrx : x % 2 ^ N = rx at *
        generalize hry : y % 2 ^ N = ry at *
        refine ⟨(rx : Int), (qx : Int), (ry : Int), (qy : Int), ?_, ?_, ?_⟩
        · exact_mod_cast ex.symm
        · exact_mod_cast ey.symm
        · rcases this.1 hc with ⟨h1, h2⟩ | ⟨h1, h2⟩
          · refine Or.inl ⟨by rw [h1], ⟨by omega, by exact_mod_cast ha⟩, by push_cast; omega⟩
          · exact Or.inr ⟨by rw [h1], ⟨by omega, by exact_mod_cast hb⟩, h2⟩
      · rintro ⟨a, b, c, d', rfl, rfl, ⟨rfl, ⟨ha, ha'⟩, hbd⟩ | ⟨rfl, ⟨hb, hb'⟩, hc⟩⟩
        · push_cast at hbd ha'
          obtain ⟨a, rfl⟩ := Int.eq_ofNat_of_zero_le ha
          obtain ⟨b, rfl⟩ := Int.eq_ofNat_of_zero_le (show 0 ≤ b by omega)
          obtain ⟨d', rfl⟩ := Int.eq_ofNat_of_zero_le (show 0 ≤ d' by omega)
          have ha'' : a < 2 ^ N := by exact_mod_cast ha'
          have := (cube_split ha'' ha'' (b := b) (d := d') (by omega) (by omega)).2 (Or.inl ⟨rfl, by omega⟩)
          exact_mod_cast this
        · have hcc := hc
          obtain ⟨x, y, k, rfl, rfl, hx, hy, -, -⟩ := hcc
          push_cast at hb'
          obtain ⟨b, rfl⟩ := Int.eq_ofNat_of_zero_le hb
          have := (cube_split hx hy (b := b) (d := b) (by omega) (by omega)).2 (Or.inr ⟨rfl, hc⟩)
          exact_mod_cast this

/-! ## Complete trees -/

/-- The documented number of vertices. -/
theorem treeSize_closed (c : Nat) : ∀ h, (c - 1 : Int) * treeSize c h = c ^ (h + 1) - 1
  | 0 => by unfold treeSize; push_cast; ring
  | h + 1 => by
    have ih := treeSize_closed c h
    unfold treeSize
    push_cast
    linear_combination (c : Int) * ih

theorem treeSize_pos (c h : Nat) : 1 ≤ treeSize c h := by
  cases h <;> unfold treeSize <;> omega

theorem attach_good {c S : Nat} {R : Int → Int → Prop} (hS : 1 ≤ S) (hfit : I64 (1 + c * S : Int)) {sub res : Graph E}
    (hsub : Good sub dir 0 S (ofRel dir R)) (hres : Good res dir 0 1 (ofRel dir fun _ _ => False)) :
    ∃ g, attach (c : Int) sub res = .ok g ∧ Good g dir 0 (1 + c * S) (ofRel dir fun u v => ∃ i : Nat, i < c ∧
      ((u = 0 ∧ v = 1 + i * S) ∨ R (u - (1 + i * S)) (v - (1 + i * S)))) := by
  unfold attach
  obtain ⟨g, h1, k, hk, h2⟩ := forI_inv (a := 0) (b := (c : Int)) (s := res) (f := fun _ (res : Graph E) => do
      let next := res.nodeCount
      let res ← res.append sub
      res.add 0 next default)
    (fun i g => ∃ k : Nat, i = k ∧ Good g dir 0 (1 + k * S) (ofRel dir fun u v => ∃ i : Nat, i < k ∧
      ((u = 0 ∧ v = 1 + i * S) ∨ R (u - (1 + i * S)) (v - (1 + i * S))))) ⟨0, rfl, by
        rw [zero_mul, ofRel_congr (R' := fun _ _ => False)]
        · exact hres
        · intro u v; simp⟩ (by omega) (by
    rintro i s hi0 hic ⟨k, rfl, hg⟩
    have hkc : k + 1 ≤ c := by omega
    have hmul : ((k + 1 : Nat) : Int) * S ≤ c * S := Int.mul_le_mul_of_nonneg_right (by exact_mod_cast hkc) (by omega)
    have hmul' : ((k + 1 : Nat) : Int) * S = k * S + S := by push_cast; ring
    have h0 : (0 : Int) ≤ k * S := Int.mul_nonneg (by omega) (by omega)
    have := hfit.2
    obtain ⟨g1, a1, a2⟩ := hg.append hsub ⟨by push_cast; omega, by push_cast; omega⟩ ⟨by push_cast; omega, by push_cast; omega⟩
      ⟨by push_cast; omega, by push_cast; omega⟩
    obtain ⟨g2, b1, b2, -⟩ := a2.add (u := 0) (v := ((1 + k * S : Nat) : Int)) default ⟨by omega, by push_cast; omega⟩
      ⟨by push_cast; omega, by push_cast; omega⟩ (by push_cast; omega)
    refine ⟨g2, ?_, k + 1, by push_cast; omega, ?_⟩
    · simp only
      rw [hg.nodeCount_eq, a1, ok_bind, b1]
    · rw [shift_ofRel, union_ofRel, put_ofRel] at b2
      rw [show 1 + (k + 1) * S = 1 + k * S + S from by ring, ofRel_congr]
      · exact b2
      · intro u v
        have hsh : (0 : Int) + ((1 + k * S : Nat) : Int) - 0 = 1 + k * S := by push_cast; ring
        rw [hsh]
        push_cast
        constructor
        · rintro ⟨i, hi, h⟩
          by_cases hik : i = k
          · subst hik
            rcases h with h | h
            · exact Or.inr h
            · exact Or.inl (Or.inr h)
          · exact Or.inl (Or.inl ⟨i, by omega, h⟩)
        · rintro ((⟨i, hi, h⟩ | h) | h)
          · exact ⟨i, by omega, h⟩
          · exact ⟨k, by omega, Or.inr h⟩
          · exact ⟨k, by omega, Or.inl h⟩)
  refine ⟨g, h1, ?_⟩
  have : k = c := by omega
  subst this
  exact h2

theorem star_tree {c : Nat} (hn : I64 (c + 1 : Int)) : ∃ g : Graph E, star dir (c : Int) = .ok g ∧
    Good g dir 0 (treeSize c 1) (ofRel dir (TreeEdge c 1)) := by
  obtain ⟨g, h1, h2⟩ := star_good (E := E) (dir := dir) (n := c) hn
  refine ⟨g, h1, ?_⟩
  have e : treeSize c 1 = c + 1 := by simp [treeSize]; omega
  rw [e, ofRel_congr]
  · exact h2
  · intro u v
    simp only [TreeEdge, treeSize, or_false]
    constructor
    · rintro ⟨i, hi, rfl, rfl⟩
      refine ⟨rfl, ?_, ?_⟩ <;> push_cast <;> omega
    · rintro ⟨rfl, h1, h2⟩; exact ⟨(v - 1).toNat, by omega, rfl, by push_cast; omega⟩

theorem treeSize_mono {c : Nat} (hc : 1 ≤ c) (h : Nat) : treeSize c h ≤ treeSize c (h + 1) := by
  conv_rhs => unfold treeSize
  have : 1 * treeSize c h ≤ c * treeSize c h := Nat.mul_le_mul_right _ hc
  omega

theorem completeTree_good {c : Nat} : ∀ k : Nat, I64 (treeSize c (k + 1) : Int) → ∃ g : Graph E, completeTreeN dir (c : Int) (k + 2) = .ok g ∧
    Good g dir 0 (treeSize c (k + 1)) (ofRel dir (TreeEdge c (k + 1)))
  | 0, hfit => by
    have e : treeSize c 1 = c + 1 := by simp [treeSize]; omega
    exact star_tree (by rw [e] at hfit; push_cast at hfit; exact hfit)
  | k + 1, hfit => by
    have hfit' : I64 (treeSize c (k + 1) : Int) := by
      by_cases hc : 1 ≤ c
      · have := treeSize_mono hc (k + 1)
        have := hfit.2
        exact ⟨by omega, by omega⟩
      · have : c = 0 := by omega
        subst this
        simp [treeSize, I64]
    obtain ⟨sub, s1, s2⟩ := completeTree_good k hfit'
    obtain ⟨res, r1, r2, -⟩ := new_good (E := E) dir (l := 0) (r := 1) (by decide) (by decide) (by decide) (by decide)
    have hempty : (fun _ _ => none : Map E) = ofRel dir fun _ _ => False := by
      funext u v; unfold ofRel; simp
    rw [hempty] at r2
    have hs : treeSize c (k + 2) = 1 + c * treeSize c (k + 1) := rfl
    obtain ⟨g, g1, g2⟩ := attach_good (c := c) (treeSize_pos c (k + 1)) (by rw [hs] at hfit; push_cast at hfit; exact hfit) s2 r2
    refine ⟨g, ?_, ?_⟩
    · unfold completeTreeN
      have r1' : Graph.ofSize dir 1 = .ok res := r1
      rw [r1', ok_bind, s1, ok_bind, g1]
    · exact g2

end ICPC.Gen
