import Verif.Spec.FordFulkerson
import Mathlib.Tactic

/-!
# The depth first search in the network of `ffWorstcase`

The vertices `A k .. B k` are the first `k` layers around the middle edge. With the flow `x` through them (`St`), the search that enters at `A k` leaves
at `B k`, and one that enters at `B k` leaves at `A k`, over the path `path`.
-/

namespace ICPC.FFProof

open ICPC.Gen Spec.FF

/-- The first vertex of the first `k` layers. -/
def A (n k : Nat) : Int := n - 1 - k

/-- The last one. -/
def B (n k : Nat) : Int := n + k

def innerA (n : Nat) : Nat → List Arc
  | 0 => [⟨0, false, B n 0, 1⟩]
  | k + 1 => [⟨4 * k + 1, false, A n k, 2 ^ k⟩, ⟨4 * k + 2, false, B n k, 2 ^ k⟩]

def outerA (n k : Nat) : List Arc := [⟨4 * k + 1, true, A n (k + 1), 2 ^ k⟩, ⟨4 * k + 3, false, B n (k + 1), 2 ^ k⟩]

def innerB (n : Nat) : Nat → List Arc
  | 0 => [⟨0, true, A n 0, 1⟩]
  | k + 1 => [⟨4 * k + 3, true, A n k, 2 ^ k⟩, ⟨4 * k + 4, true, B n k, 2 ^ k⟩]

def outerB (n k : Nat) : List Arc := [⟨4 * k + 2, true, A n (k + 1), 2 ^ k⟩, ⟨4 * k + 4, false, B n (k + 1), 2 ^ k⟩]

/-! ## The edges -/

/-- The edges of the layer around the first `k`, in order. -/
def layer (n k : Nat) : List (Edge Int) :=
  [⟨A n (k + 1), A n k, 2 ^ k⟩, ⟨A n (k + 1), B n k, 2 ^ k⟩, ⟨A n k, B n (k + 1), 2 ^ k⟩, ⟨B n k, B n (k + 1), 2 ^ k⟩]

/-- All edges of the first `k` layers, in order. -/
def ffEdges (n : Nat) : Nat → List (Edge Int)
  | 0 => [⟨A n 0, B n 0, 1⟩]
  | k + 1 => ffEdges n k ++ layer n k

theorem ffEdges_length (n k : Nat) : (ffEdges n k).length = 4 * k + 1 := by
  induction k with
  | zero => rfl
  | succ k ih =>
    rw [ffEdges, List.length_append, ih]
    simp [layer]
    omega

theorem arcsFrom_append (v : Int) (es es' : List (Edge Int)) : ∀ i, arcsFrom v i (es ++ es') = arcsFrom v i es ++ arcsFrom v (i + es.length) es' := by
  induction es with
  | nil => intro i; simp [arcsFrom]
  | cons e es ih =>
    intro i
    rw [List.cons_append, arcsFrom, ih, arcsFrom, List.length_cons, show i + (es.length + 1) = i + 1 + es.length by omega]
    simp

theorem arcs_succ (n k : Nat) (v : Int) : arcs (ffEdges n (k + 1)) v = arcs (ffEdges n k) v ++ arcsFrom v (4 * k + 1) (layer n k) := by
  unfold arcs
  rw [ffEdges, arcsFrom_append, ffEdges_length, zero_add]

theorem layer_A_old {n k j : Nat} (h : j < k) : arcsFrom (A n j) (4 * k + 1) (layer n k) = [] := by
  unfold layer
  simp only [arcsFrom]
  repeat rw [if_neg (by simp only [A, B]; omega)]
  rfl

theorem layer_B_old {n k j : Nat} (h : j < k) : arcsFrom (B n j) (4 * k + 1) (layer n k) = [] := by
  unfold layer
  simp only [arcsFrom]
  repeat rw [if_neg (by simp only [A, B]; omega)]
  rfl

theorem A_eq_A {n i j : Nat} : A n i = A n j ↔ i = j := by unfold A; omega

theorem B_eq_B {n i j : Nat} : B n i = B n j ↔ i = j := by unfold B; omega

theorem A_eq_B {n i j : Nat} : A n i = B n j ↔ False := iff_false_intro fun h => by unfold A B at h; omega

theorem B_eq_A {n i j : Nat} : B n i = A n j ↔ False := iff_false_intro fun h => by unfold A B at h; omega

theorem layer_A_same {n k : Nat} : arcsFrom (A n k) (4 * k + 1) (layer n k) = outerA n k := by
  simp [layer, outerA, arcsFrom, A_eq_A, B_eq_A]

theorem layer_B_same {n k : Nat} : arcsFrom (B n k) (4 * k + 1) (layer n k) = outerB n k := by
  simp [layer, outerB, arcsFrom, B_eq_B, A_eq_B]

theorem layer_A_next {n k : Nat} : arcsFrom (A n (k + 1)) (4 * k + 1) (layer n k) = innerA n (k + 1) := by
  simp [layer, innerA, arcsFrom, A_eq_A, B_eq_A]

theorem layer_B_next {n k : Nat} : arcsFrom (B n (k + 1)) (4 * k + 1) (layer n k) = innerB n (k + 1) := by
  simp [layer, innerB, arcsFrom, B_eq_B, A_eq_B]

theorem layer_A_new {n k j : Nat} (h : k + 1 < j) : arcsFrom (A n j) (4 * k + 1) (layer n k) = [] := by
  unfold layer
  simp only [arcsFrom]
  repeat rw [if_neg (by simp only [A, B]; omega)]
  rfl

theorem layer_B_new {n k j : Nat} (h : k + 1 < j) : arcsFrom (B n j) (4 * k + 1) (layer n k) = [] := by
  unfold layer
  simp only [arcsFrom]
  repeat rw [if_neg (by simp only [A, B]; omega)]
  rfl

theorem arcs_A (n : Nat) : ∀ k j, arcs (ffEdges n k) (A n j) = if j < k then innerA n j ++ outerA n j else if j = k then innerA n j else [] := by
  intro k
  induction k with
  | zero =>
    intro j
    rw [if_neg (by omega)]
    unfold arcs ffEdges
    simp only [arcsFrom]
    by_cases h : j = 0
    · subst h
      rw [if_pos rfl, if_neg (by unfold A B; omega), if_pos rfl]
      rfl
    · rw [if_neg (by unfold A; omega), if_neg (by unfold A B; omega), if_neg h]
      rfl
  | succ k ih =>
    intro j
    rw [arcs_succ, ih]
    rcases (show j < k ∨ j = k ∨ j = k + 1 ∨ k + 1 < j by omega) with h | h | h | h
    · rw [if_pos h, if_pos (by omega), layer_A_old h, List.append_nil]
    · subst h
      rw [if_neg (by omega), if_pos rfl, if_pos (by omega), layer_A_same]
    · subst h
      rw [if_neg (by omega), if_neg (by omega), if_neg (by omega), if_pos rfl, layer_A_next, List.nil_append]
    · rw [if_neg (by omega), if_neg (by omega), if_neg (by omega), if_neg (by omega), layer_A_new h, List.nil_append]

theorem arcs_B (n : Nat) : ∀ k j, arcs (ffEdges n k) (B n j) = if j < k then innerB n j ++ outerB n j else if j = k then innerB n j else [] := by
  intro k
  induction k with
  | zero =>
    intro j
    rw [if_neg (by omega)]
    unfold arcs ffEdges
    simp only [arcsFrom]
    by_cases h : j = 0
    · subst h
      rw [if_neg (by unfold A B; omega), if_pos rfl, if_pos rfl]
      rfl
    · rw [if_neg (by unfold A B; omega), if_neg (by unfold B; omega), if_neg h]
      rfl
  | succ k ih =>
    intro j
    rw [arcs_succ, ih]
    rcases (show j < k ∨ j = k ∨ j = k + 1 ∨ k + 1 < j by omega) with h | h | h | h
    · rw [if_pos h, if_pos (by omega), layer_B_old h, List.append_nil]
    · subst h
      rw [if_neg (by omega), if_pos rfl, if_pos (by omega), layer_B_same]
    · subst h
      rw [if_neg (by omega), if_neg (by omega), if_neg (by omega), if_pos rfl, layer_B_next, List.nil_append]
    · rw [if_neg (by omega), if_neg (by omega), if_neg (by omega), if_neg (by omega), layer_B_new h, List.nil_append]

/-! ## The state -/

/-- The flow of `x` through the first `k` layers: the inner layers are filled, then emptied again. -/
def St : Nat → Int → (Nat → Int) → Prop
  | 0, x, f => f 0 = x ∧ 0 ≤ x ∧ x ≤ 1
  | k + 1, x, f => 0 ≤ x ∧ x ≤ 2 * 2 ^ k ∧ f (4 * k + 1) = min x (2 ^ k) ∧ f (4 * k + 4) = min x (2 ^ k) ∧ f (4 * k + 2) = max (x - 2 ^ k) 0 ∧
    f (4 * k + 3) = max (x - 2 ^ k) 0 ∧ St k (min x (2 * 2 ^ k - x)) f

theorem St.congr : ∀ {k : Nat} {x : Int} {f f' : Nat → Int}, St k x f → (∀ i, i ≤ 4 * k → f' i = f i) → St k x f'
  | 0, x, f, f', h, he => by
    obtain ⟨h1, h2⟩ := h
    exact ⟨(he 0 (by omega)).trans h1, h2⟩
  | k + 1, x, f, f', h, he => by
    obtain ⟨h1, h2, h3, h4, h5, h6, h7⟩ := h
    exact ⟨h1, h2, (he _ (by omega)).trans h3, (he _ (by omega)).trans h4, (he _ (by omega)).trans h5, (he _ (by omega)).trans h6,
      h7.congr fun i hi => he i (by omega)⟩

theorem St.zero (k : Nat) : St k 0 fun _ => 0 := by
  induction k with
  | zero => exact ⟨rfl, le_rfl, by norm_num⟩
  | succ k ih =>
    have hp : (0 : Int) < 2 ^ k := by positivity
    refine ⟨le_rfl, by omega, by simp only; omega, by simp only; omega, by simp only; omega, by simp only; omega, ?_⟩
    rw [show min (0 : Int) (2 * 2 ^ k - 0) = 0 by omega]
    exact ih

/-- The path that the search takes through the first `k` layers, forwards and backwards. -/
def path (n : Nat) : Nat → Bool → Int → List Arc
  | 0, false, _ => [⟨0, false, B n 0, 1⟩]
  | 0, true, _ => [⟨0, true, A n 0, 1⟩]
  | k + 1, false, x =>
    if x < 2 ^ k then ⟨4 * k + 1, false, A n k, 2 ^ k⟩ :: (path n k false x ++ [⟨4 * k + 4, false, B n (k + 1), 2 ^ k⟩])
    else ⟨4 * k + 2, false, B n k, 2 ^ k⟩ :: (path n k true (2 * 2 ^ k - x) ++ [⟨4 * k + 3, false, B n (k + 1), 2 ^ k⟩])
  | k + 1, true, x =>
    if 2 ^ k < x then ⟨4 * k + 3, true, A n k, 2 ^ k⟩ :: (path n k false (2 * 2 ^ k - x) ++ [⟨4 * k + 2, true, A n (k + 1), 2 ^ k⟩])
    else ⟨4 * k + 4, true, B n k, 2 ^ k⟩ :: (path n k true x ++ [⟨4 * k + 1, true, A n (k + 1), 2 ^ k⟩])

theorem path_length (n : Nat) : ∀ k d x, (path n k d x).length = 2 * k + 1 := by
  intro k
  induction k with
  | zero => intro d x; cases d <;> rfl
  | succ k ih =>
    intro d x
    cases d <;> (rw [path]; split <;> simp [ih] <;> omega)

/-- Every arc of the path has something left, the one over the middle edge exactly one. -/
theorem path_residual (n : Nat) : ∀ (k : Nat) (d : Bool) (x : Int) (f : Nat → Int), St k x f → (d = false → x < 2 ^ k) → (d = true → 0 < x) →
    (∀ a ∈ path n k d x, 1 ≤ remaining f a) ∧ ∃ a ∈ path n k d x, remaining f a = 1 := by
  intro k
  induction k with
  | zero =>
    intro d x f h hf ht
    obtain ⟨h1, h2, h3⟩ := h
    cases d
    · have := hf rfl
      have e : f 0 = 0 := by rw [pow_zero] at this; omega
      simp [path, remaining, e]
    · have := ht rfl
      have e : f 0 = 1 := by omega
      simp [path, remaining, e]
  | succ k ih =>
    intro d x f h hf ht
    have hp : (0 : Int) < 2 ^ k := by positivity
    rw [pow_succ] at hf
    obtain ⟨h1, h2, h3, h4, h5, h6, h7⟩ := h
    have key : ∀ (a b : Arc) (p : List Arc), 1 ≤ remaining f a → 1 ≤ remaining f b → ((∀ a ∈ p, 1 ≤ remaining f a) ∧ ∃ a ∈ p, remaining f a = 1) →
        (∀ c ∈ a :: (p ++ [b]), 1 ≤ remaining f c) ∧ ∃ c ∈ a :: (p ++ [b]), remaining f c = 1 := by
      rintro a b p ha hb ⟨q1, c, q2, q3⟩
      refine ⟨fun x hx => ?_, c, by simp [q2], q3⟩
      simp only [List.mem_cons, List.mem_append, List.not_mem_nil, or_false] at hx
      rcases hx with rfl | hx | rfl
      · exact ha
      · exact q1 x hx
      · exact hb
    cases d
    · have hx := hf rfl
      rw [path]
      split
      · rename_i hlt
        rw [show min x (2 * 2 ^ k - x) = x by omega] at h7
        refine key _ _ _ ?_ ?_ (ih false x f h7 (fun _ => hlt) (by simp))
        · simp only [remaining, h3, Bool.false_eq_true, if_false]; omega
        · simp only [remaining, h4, Bool.false_eq_true, if_false]; omega
      · rename_i hge
        rw [show min x (2 * 2 ^ k - x) = 2 * 2 ^ k - x by omega] at h7
        refine key _ _ _ ?_ ?_ (ih true _ f h7 (by simp) (fun _ => by omega))
        · simp only [remaining, h5, Bool.false_eq_true, if_false]; omega
        · simp only [remaining, h6, Bool.false_eq_true, if_false]; omega
    · have hx := ht rfl
      rw [path]
      split
      · rename_i hlt
        rw [show min x (2 * 2 ^ k - x) = 2 * 2 ^ k - x by omega] at h7
        refine key _ _ _ ?_ ?_ (ih false _ f h7 (fun _ => by omega) (by simp))
        · simp only [remaining, h6, if_true]; omega
        · simp only [remaining, h5, if_true]; omega
      · rename_i hge
        rw [show min x (2 * 2 ^ k - x) = x by omega] at h7
        refine key _ _ _ ?_ ?_ (ih true _ f h7 (by simp) (fun _ => hx))
        · simp only [remaining, h4, if_true]; omega
        · simp only [remaining, h3, if_true]; omega

theorem bottleneck_one {f : Nat → Int} : ∀ {p : List Arc}, (∀ a ∈ p, 1 ≤ remaining f a) → (∃ a ∈ p, remaining f a = 1) → bottleneck f p = some 1 := by
  suffices H : ∀ {p : List Arc}, (∀ a ∈ p, 1 ≤ remaining f a) → (p = [] ∨ ∃ c, bottleneck f p = some c ∧ 1 ≤ c ∧ ((∃ a ∈ p, remaining f a = 1) → c = 1)) by
    intro p h1 h2
    rcases H h1 with rfl | ⟨c, h3, -, h4⟩
    · simp at h2
    · rw [h3, h4 h2]
  intro p
  induction p with
  | nil => intro _; exact Or.inl rfl
  | cons a p ih =>
    intro h
    right
    have ha := h a (by simp)
    rcases ih fun b hb => h b (by simp [hb]) with rfl | ⟨c, h3, h5, h4⟩
    · refine ⟨remaining f a, rfl, ha, ?_⟩
      simp
    · refine ⟨min (remaining f a) c, by simp [bottleneck, h3], by omega, ?_⟩
      rintro ⟨b, hb, h6⟩
      rcases List.mem_cons.1 hb with rfl | hb
      · omega
      · have := h4 ⟨b, hb, h6⟩
        omega

theorem push_ne {f : Nat → Int} {a : Arc} {i : Nat} {c : Int} (h : i ≠ a.id) : push c f a i = f i := by
  unfold push
  rw [Function.update_of_ne h]

theorem push_self {f : Nat → Int} {a : Arc} {c : Int} : push c f a a.id = f a.id + if a.back then -c else c := by
  unfold push
  rw [Function.update_self]

/-- The augmentation changes the flow through the layers by one and nothing else. -/
theorem path_push (n : Nat) : ∀ (k : Nat) (d : Bool) (x : Int) (f : Nat → Int), St k x f → (d = false → x < 2 ^ k) → (d = true → 0 < x) →
    St k (if d then x - 1 else x + 1) ((path n k d x).foldl (push 1) f) ∧ ∀ i, 4 * k < i → (path n k d x).foldl (push 1) f i = f i := by
  intro k
  induction k with
  | zero =>
    intro d x f h hf ht
    obtain ⟨h1, h2, h3⟩ := h
    cases d
    · have := hf rfl
      rw [pow_zero] at this
      refine ⟨⟨?_, by simp; omega, by simp; omega⟩, fun i hi => ?_⟩
      · have := push_self (f := f) (a := ⟨0, false, B n 0, 1⟩) (c := 1)
        simpa [path, h1] using this
      · exact push_ne (a := ⟨0, false, B n 0, 1⟩) (by simp; omega)
    · have := ht rfl
      refine ⟨⟨?_, by simp; omega, by simp; omega⟩, fun i hi => ?_⟩
      · have := push_self (f := f) (a := ⟨0, true, A n 0, 1⟩) (c := 1)
        simpa [path, h1, sub_eq_add_neg] using this
      · exact push_ne (a := ⟨0, true, A n 0, 1⟩) (by simp; omega)
  | succ k ih =>
    intro d x f h hf ht
    have hp : (0 : Int) < 2 ^ k := by positivity
    rw [pow_succ] at hf
    obtain ⟨h1, h2, h3, h4, h5, h6, h7⟩ := h
    -- the general shape
    have key : ∀ (a b : Arc) (d' : Bool) (y : Int), a.id ≠ b.id → 4 * k < a.id → 4 * k < b.id → a.id ≤ 4 * k + 4 → b.id ≤ 4 * k + 4 → St k y f →
        (d' = false → y < 2 ^ k) → (d' = true → 0 < y) →
        ∃ f', (a :: (path n k d' y ++ [b])).foldl (push 1) f = f' ∧ St k (if d' then y - 1 else y + 1) f' ∧ f' a.id = f a.id + (if a.back then -1 else 1) ∧
          f' b.id = f b.id + (if b.back then -1 else 1) ∧ ∀ i, 4 * k < i → i ≠ a.id → i ≠ b.id → f' i = f i := by
      intro a b d' y hne ha hb ha4 hb4 hst q1 q2
      obtain ⟨r1, r2⟩ := ih d' y (push 1 f a) (hst.congr fun i hi => push_ne (by omega)) q1 q2
      refine ⟨_, rfl, ?_, ?_, ?_, ?_⟩
      · rw [List.foldl_cons, List.foldl_append, List.foldl_cons, List.foldl_nil]
        exact r1.congr fun i hi => push_ne (by omega)
      · rw [List.foldl_cons, List.foldl_append, List.foldl_cons, List.foldl_nil, push_ne hne, r2 _ ha, push_self]
      · rw [List.foldl_cons, List.foldl_append, List.foldl_cons, List.foldl_nil, push_self, r2 _ hb, push_ne hne.symm]
      · intro i hi hia hib
        rw [List.foldl_cons, List.foldl_append, List.foldl_cons, List.foldl_nil, push_ne hib, r2 _ hi, push_ne hia]
    cases d
    · have hx := hf rfl
      rw [path]
      simp only [Bool.false_eq_true, if_false]
      by_cases hlt : x < 2 ^ k
      · rw [if_pos hlt]
        rw [show min x (2 * 2 ^ k - x) = x by omega] at h7
        obtain ⟨f', e, s1, s2, s3, s4⟩ := key ⟨4 * k + 1, false, A n k, 2 ^ k⟩ ⟨4 * k + 4, false, B n (k + 1), 2 ^ k⟩ false x (by simp) (by simp) (by simp)
          (by simp) (by simp) h7 (fun _ => hlt) (by simp)
        simp only [Bool.false_eq_true, if_false] at s1 s2 s3 s4
        rw [e]
        refine ⟨⟨by omega, by omega, by omega, by omega, ?_, ?_, ?_⟩, fun i hi => s4 i (by omega) (by omega) (by omega)⟩
        · rw [s4 _ (by omega) (by omega) (by omega)]; omega
        · rw [s4 _ (by omega) (by omega) (by omega)]; omega
        · rw [show min (x + 1) (2 * 2 ^ k - (x + 1)) = x + 1 by omega]; exact s1
      · rw [if_neg hlt]
        rw [show min x (2 * 2 ^ k - x) = 2 * 2 ^ k - x by omega] at h7
        obtain ⟨f', e, s1, s2, s3, s4⟩ := key ⟨4 * k + 2, false, B n k, 2 ^ k⟩ ⟨4 * k + 3, false, B n (k + 1), 2 ^ k⟩ true (2 * 2 ^ k - x) (by simp) (by simp)
          (by simp) (by simp) (by simp) h7 (by simp) (fun _ => by omega)
        simp only [Bool.false_eq_true, if_false, if_true] at s1 s2 s3 s4
        rw [e]
        refine ⟨⟨by omega, by omega, ?_, ?_, by omega, by omega, ?_⟩, fun i hi => s4 i (by omega) (by omega) (by omega)⟩
        · rw [s4 _ (by omega) (by omega) (by omega)]; omega
        · rw [s4 _ (by omega) (by omega) (by omega)]; omega
        · rw [show min (x + 1) (2 * 2 ^ k - (x + 1)) = 2 * 2 ^ k - x - 1 by omega]; exact s1
    · have hx := ht rfl
      rw [path]
      simp only [if_true]
      by_cases hlt : 2 ^ k < x
      · rw [if_pos hlt]
        rw [show min x (2 * 2 ^ k - x) = 2 * 2 ^ k - x by omega] at h7
        obtain ⟨f', e, s1, s2, s3, s4⟩ := key ⟨4 * k + 3, true, A n k, 2 ^ k⟩ ⟨4 * k + 2, true, A n (k + 1), 2 ^ k⟩ false (2 * 2 ^ k - x) (by simp) (by simp)
          (by simp) (by simp) (by simp) h7 (fun _ => by omega) (by simp)
        simp only [Bool.false_eq_true, if_false, if_true] at s1 s2 s3 s4
        rw [e]
        refine ⟨⟨by omega, by omega, ?_, ?_, by omega, by omega, ?_⟩, fun i hi => s4 i (by omega) (by omega) (by omega)⟩
        · rw [s4 _ (by omega) (by omega) (by omega)]; omega
        · rw [s4 _ (by omega) (by omega) (by omega)]; omega
        · rw [show min (x - 1) (2 * 2 ^ k - (x - 1)) = 2 * 2 ^ k - x + 1 by omega]; exact s1
      · rw [if_neg hlt]
        rw [show min x (2 * 2 ^ k - x) = x by omega] at h7
        obtain ⟨f', e, s1, s2, s3, s4⟩ := key ⟨4 * k + 4, true, B n k, 2 ^ k⟩ ⟨4 * k + 1, true, A n (k + 1), 2 ^ k⟩ true x (by simp) (by simp)
          (by simp) (by simp) (by simp) h7 (by simp) (fun _ => hx)
        simp only [if_true] at s1 s2 s3 s4
        rw [e]
        refine ⟨⟨by omega, by omega, by omega, by omega, ?_, ?_, ?_⟩, fun i hi => s4 i (by omega) (by omega) (by omega)⟩
        · rw [s4 _ (by omega) (by omega) (by omega)]; omega
        · rw [s4 _ (by omega) (by omega) (by omega)]; omega
        · rw [show min (x - 1) (2 * 2 ^ k - (x - 1)) = x - 1 by omega]; exact s1

/-! ## The search -/

section

variable {adj : Int → List Arc} {f : Nat → Int} {t : Int}

theorem tryArcs_nil (fuel : Nat) (S : List Int) : tryArcs adj f t fuel S [] = (S, none) := by rw [tryArcs]

theorem tryArcs_skip {fuel : Nat} {S : List Int} {a : Arc} (as : List Arc) (h : remaining f a ≤ 0 ∨ a.target ∈ S) :
    tryArcs adj f t fuel S (a :: as) = tryArcs adj f t fuel S as := by
  rw [tryArcs, if_neg]
  rintro ⟨h1, h2⟩
  rcases h with h | h
  · omega
  · exact h2 h

theorem tryArcs_take {fuel : Nat} {S : List Int} {a : Arc} (as : List Arc) {p : List Arc} (h1 : 1 ≤ remaining f a) (h2 : a.target ∉ S)
    (h3 : (dfs adj f t fuel S a.target).2 = some p) : (tryArcs adj f t fuel S (a :: as)).2 = some (a :: p) := by
  rw [tryArcs, if_pos ⟨by omega, h2⟩]
  rcases hd : dfs adj f t fuel S a.target with ⟨S', o⟩
  rw [hd] at h3
  simp only at h3
  subst h3
  rfl

/-- Arcs that lead only to vertices without success, all of them in `V`. -/
theorem tryArcs_dead {fuel : Nat} {V D : Int → Prop}
    (hdead : ∀ (S : List Int) (w : Int), V w → w ∉ S → (∀ x, D x → x ∈ S) → (dfs adj f t fuel S w).2 = none ∧ (∀ x ∈ S, x ∈ (dfs adj f t fuel S w).1) ∧
      ∀ x ∈ (dfs adj f t fuel S w).1, x ∈ S ∨ V x) (rest : List Arc) :
    ∀ (as : List Arc) (S : List Int), (∀ a ∈ as, V a.target) → (∀ x, D x → x ∈ S) →
      ∃ S' : List Int, tryArcs adj f t fuel S (as ++ rest) = tryArcs adj f t fuel S' rest ∧ (∀ x ∈ S, x ∈ S') ∧ ∀ x ∈ S', x ∈ S ∨ V x := by
  intro as
  induction as with
  | nil => intro S _ _; exact ⟨S, rfl, fun _ h => h, fun _ h => Or.inl h⟩
  | cons a as ih =>
    intro S h hD
    rw [List.cons_append]
    by_cases hc : remaining f a ≤ 0 ∨ a.target ∈ S
    · rw [tryArcs_skip _ hc]
      exact ih S (fun b hb => h b (by simp [hb])) hD
    · rw [not_or] at hc
      obtain ⟨h1, h2, h3⟩ := hdead S a.target (h a (by simp)) hc.2 hD
      rw [tryArcs, if_pos ⟨by omega, hc.2⟩]
      rcases hd : dfs adj f t fuel S a.target with ⟨S', o⟩
      rw [hd] at h1 h2 h3
      simp only at h1 h2 h3
      subst h1
      obtain ⟨S'', q1, q2, q3⟩ := ih S' (fun b hb => h b (by simp [hb])) (fun x hx => h2 x (hD x hx))
      refine ⟨S'', q1, fun x hx => q2 x (h2 x hx), fun x hx => ?_⟩
      rcases q3 x hx with h' | h'
      · exact h3 x h'
      · exact Or.inr h'

variable {n : Nat}

/-- Inside the first `k` layers. -/
def V (n k : Nat) (v : Int) : Prop := A n k ≤ v ∧ v ≤ B n k

/-- The adjacency lists of the network with `n - 1` layers. -/
structure Shape (n : Nat) (adj : Int → List Arc) : Prop where
  a : ∀ k, k + 1 < n → adj (A n k) = innerA n k ++ outerA n k
  b : ∀ k, k + 1 < n → adj (B n k) = innerB n k ++ outerB n k
  lastA : adj (A n (n - 1)) = innerA n (n - 1)

theorem innerA_target {n k : Nat} : ∀ a ∈ innerA n k, V n k a.target := by
  cases k with
  | zero => simp [innerA, V, A, B]
  | succ k =>
    simp only [innerA, List.mem_cons, List.not_mem_nil, or_false, V]
    rintro a (rfl | rfl) <;> (simp only [A, B]; omega)

theorem innerB_target {n k : Nat} : ∀ a ∈ innerB n k, V n k a.target := by
  cases k with
  | zero => simp [innerB, V, A, B]
  | succ k =>
    simp only [innerB, List.mem_cons, List.not_mem_nil, or_false, V]
    rintro a (rfl | rfl) <;> (simp only [A, B]; omega)

theorem outerA_target {n k : Nat} : ∀ a ∈ outerA n k, V n (k + 1) a.target := by
  simp only [outerA, List.mem_cons, List.not_mem_nil, or_false, V]
  rintro a (rfl | rfl) <;> (simp only [A, B]; omega)

theorem outerB_target {n k : Nat} : ∀ a ∈ outerB n k, V n (k + 1) a.target := by
  simp only [outerB, List.mem_cons, List.not_mem_nil, or_false, V]
  rintro a (rfl | rfl) <;> (simp only [A, B]; omega)

theorem V.mono {n k k' : Nat} {v : Int} (h : V n k v) (hk : k ≤ k') : V n k' v := by
  unfold V A B at *; omega

/-- The search does not leave the first `k` layers if their two ends have been seen. -/
theorem dead (hs : Shape n adj) (ht : t = B n (n - 1)) {k : Nat} (hk : k < n) : ∀ (fuel : Nat) (S : List Int) (w : Int), V n k w → w ∉ S →
    (∀ x, x = A n k ∨ x = B n k → x ∈ S) → (dfs adj f t fuel S w).2 = none ∧ (∀ x ∈ S, x ∈ (dfs adj f t fuel S w).1) ∧
      ∀ x ∈ (dfs adj f t fuel S w).1, x ∈ S ∨ V n k x := by
  intro fuel
  induction fuel with
  | zero =>
    intro S w _ _ _
    rw [dfs]
    exact ⟨rfl, fun _ h => h, fun _ h => Or.inl h⟩
  | succ fuel ih =>
    intro S w hw hwS hD
    have hA : w ≠ A n k := fun e => hwS (e ▸ hD _ (Or.inl rfl))
    have hB : w ≠ B n k := fun e => hwS (e ▸ hD _ (Or.inr rfl))
    have hwt : w ≠ t := by
      rw [ht]; unfold V A B at *; omega
    rw [dfs, if_neg hwt]
    have harcs : ∀ a ∈ adj w, V n k a.target := by
      unfold V A B at hw
      unfold A at hA
      unfold B at hB
      by_cases hlow : w ≤ n - 1
      · obtain ⟨j, hj⟩ : ∃ j : Nat, (j : Int) = n - 1 - w := ⟨(n - 1 - w).toNat, by omega⟩
        have e : w = A n j := by unfold A; omega
        rw [e, hs.a j (by omega)]
        intro a ha
        rcases List.mem_append.1 ha with h | h
        · exact (innerA_target a h).mono (by omega)
        · exact (outerA_target a h).mono (by omega)
      · obtain ⟨j, hj⟩ : ∃ j : Nat, (j : Int) = w - n := ⟨(w - n).toNat, by omega⟩
        have e : w = B n j := by unfold B; omega
        rw [e, hs.b j (by omega)]
        intro a ha
        rcases List.mem_append.1 ha with h | h
        · exact (innerB_target a h).mono (by omega)
        · exact (outerB_target a h).mono (by omega)
    obtain ⟨S', q1, q2, q3⟩ := tryArcs_dead (D := fun x => x = A n k ∨ x = B n k) ih [] (adj w) (w :: S) harcs (fun x hx => by simp [hD x hx])
    rw [List.append_nil, tryArcs_nil] at q1
    rw [q1]
    refine ⟨rfl, fun x hx => q2 x (by simp [hx]), fun x hx => ?_⟩
    rcases q3 x hx with h | h
    · rcases List.mem_cons.1 h with rfl | h
      · exact Or.inr hw
      · exact Or.inl h
    · exact Or.inr h

/-- Arrival at the end `B k`: the search goes on with the outer arcs. -/
theorem arriveB (hs : Shape n adj) (ht : t = B n (n - 1)) {k : Nat} (hk : k + 1 < n) {fuel : Nat} {S : List Int} {q : List Arc} (hA : A n k ∈ S)
    (h : ∀ S' : List Int, (∀ x ∈ S, x ∈ S') → (∀ x ∈ S', x ∈ S ∨ V n k x) → (tryArcs adj f t fuel S' (outerB n k)).2 = some q) :
    (dfs adj f t (fuel + 1) S (B n k)).2 = some q := by
  rw [dfs, if_neg (by rw [ht]; unfold B; omega), hs.b k hk]
  obtain ⟨S', q1, q2, q3⟩ := tryArcs_dead (D := fun x => x = A n k ∨ x = B n k) (dead hs ht (by omega) fuel) (outerB n k) (innerB n k) (B n k :: S) innerB_target
    (by rintro x (rfl | rfl) <;> simp [hA])
  rw [q1]
  refine h S' (fun x hx => q2 x (by simp [hx])) fun x hx => ?_
  rcases q3 x hx with h' | h'
  · rcases List.mem_cons.1 h' with rfl | h'
    · exact Or.inr (by unfold V A B; omega)
    · exact Or.inl h'
  · exact Or.inr h'

theorem arriveA (hs : Shape n adj) (ht : t = B n (n - 1)) {k : Nat} (hk : k + 1 < n) {fuel : Nat} {S : List Int} {q : List Arc} (hB : B n k ∈ S)
    (h : ∀ S' : List Int, (∀ x ∈ S, x ∈ S') → (∀ x ∈ S', x ∈ S ∨ V n k x) → (tryArcs adj f t fuel S' (outerA n k)).2 = some q) :
    (dfs adj f t (fuel + 1) S (A n k)).2 = some q := by
  rw [dfs, if_neg (by rw [ht]; unfold A B; omega), hs.a k hk]
  obtain ⟨S', q1, q2, q3⟩ := tryArcs_dead (D := fun x => x = A n k ∨ x = B n k) (dead hs ht (by omega) fuel) (outerA n k) (innerA n k) (A n k :: S) innerA_target
    (by rintro x (rfl | rfl) <;> simp [hB])
  rw [q1]
  refine h S' (fun x hx => q2 x (by simp [hx])) fun x hx => ?_
  rcases q3 x hx with h' | h'
  · rcases List.mem_cons.1 h' with rfl | h'
    · exact Or.inr (by unfold V A B; omega)
    · exact Or.inl h'
  · exact Or.inr h'

/-- The two ends, by direction. -/
def start (n k : Nat) (d : Bool) : Int := if d then B n k else A n k

theorem adj_startA (hs : Shape n adj) {k : Nat} (hk : k < n) : ∃ r, adj (A n k) = innerA n k ++ r := by
  by_cases h : k + 1 < n
  · exact ⟨_, hs.a k h⟩
  · rw [show k = n - 1 by omega]
    exact ⟨[], by rw [hs.lastA, List.append_nil]⟩

/-- **The search through the first `k` layers.** -/
theorem walk (hs : Shape n adj) (ht : t = B n (n - 1)) : ∀ (k : Nat) (d : Bool) (x : Int), k < n → (d = true → k + 1 < n) → St k x f → (d = false → x < 2 ^ k) →
    (d = true → 0 < x) → ∀ (fuel : Nat) (S : List Int) (q : List Arc), (∀ v, V n k v → v ∉ S) →
    (∀ S' : List Int, (∀ x ∈ S, x ∈ S') → (∀ x ∈ S', x ∈ S ∨ V n k x) → start n k d ∈ S' → start n k (!d) ∉ S' →
      (dfs adj f t fuel S' (start n k (!d))).2 = some q) →
    (dfs adj f t (fuel + (2 * k + 1)) S (start n k d)).2 = some (path n k d x ++ q) := by
  intro k
  induction k with
  | zero =>
    intro d x hk hd hst hf hb fuel S q hS hq
    obtain ⟨h1, h2, h3⟩ := hst
    cases d
    · have hx := hf rfl
      rw [pow_zero] at hx
      simp only [start, Bool.false_eq_true, if_false, Bool.not_false, if_true] at hq ⊢
      obtain ⟨r, hr⟩ := adj_startA hs hk
      rw [dfs, if_neg (by rw [ht]; unfold A B; omega), hr]
      have hB : B n 0 ∉ A n 0 :: S := by
        rw [List.mem_cons, not_or]
        exact ⟨by unfold A B; omega, hS _ (by unfold V A B; omega)⟩
      refine tryArcs_take _ (by simp only [remaining, h1, Bool.false_eq_true, if_false]; omega) hB ?_
      refine hq _ (fun x hx => by simp [hx]) (fun x hx => ?_) (by simp) hB
      rcases List.mem_cons.1 hx with rfl | h
      · exact Or.inr (by unfold V A B; omega)
      · exact Or.inl h
    · have hx := hb rfl
      simp only [start, Bool.not_true, Bool.false_eq_true, if_false, if_true] at hq ⊢
      rw [dfs, if_neg (by rw [ht]; have := hd rfl; unfold B; omega), hs.b 0 (hd rfl)]
      have hA : A n 0 ∉ B n 0 :: S := by
        rw [List.mem_cons, not_or]
        exact ⟨by unfold A B; omega, hS _ (by unfold V A B; omega)⟩
      refine tryArcs_take _ (by simp only [remaining, h1, if_true]; omega) hA ?_
      refine hq _ (fun x hx => by simp [hx]) (fun x hx => ?_) (by simp) hA
      rcases List.mem_cons.1 hx with rfl | h
      · exact Or.inr (by unfold V A B; omega)
      · exact Or.inl h
  | succ k ih =>
    intro d x hk hd hst hf hb fuel S q hS hq
    have hp : (0 : Int) < 2 ^ k := by positivity
    rw [pow_succ] at hf
    obtain ⟨h1, h2, h3, h4, h5, h6, h7⟩ := hst
    have hV : ∀ v, V n k v → v ≠ A n (k + 1) ∧ v ≠ B n (k + 1) := by
      intro v hv; unfold V A B at *; omega
    have hVA : V n (k + 1) (A n (k + 1)) := by unfold V A B; omega
    have hVB : V n (k + 1) (B n (k + 1)) := by unfold V A B; omega
    have hAB : A n (k + 1) ≠ B n (k + 1) := by unfold A B; omega
    have hVk : ∀ v, V n k v → V n (k + 1) v := fun v h => h.mono (by omega)
    have hVAk : V n k (A n k) := by unfold V A B; omega
    have hVBk : V n k (B n k) := by unfold V A B; omega
    cases d
    · have hx := hf rfl
      simp only [start, Bool.false_eq_true, if_false, Bool.not_false, if_true] at hq ⊢
      obtain ⟨r, hr⟩ := adj_startA hs hk
      rw [show fuel + (2 * (k + 1) + 1) = (fuel + 1 + (2 * k + 1)) + 1 by omega, dfs, if_neg (by rw [ht]; unfold A B; omega), hr, path]
      have hS1 : ∀ v, V n k v → v ∉ A n (k + 1) :: S := by
        intro v hv
        rw [List.mem_cons, not_or]
        exact ⟨(hV v hv).1, hS v (hVk v hv)⟩
      -- arrival at the outer end
      have fin : ∀ S' : List Int, (∀ x ∈ A n (k + 1) :: S, x ∈ S') → (∀ x ∈ S', x ∈ A n (k + 1) :: S ∨ V n k x) →
          B n (k + 1) ∉ S' ∧ (dfs adj f t fuel S' (B n (k + 1))).2 = some q := by
        intro S' q1 q2
        have hB : B n (k + 1) ∉ S' := by
          intro h
          rcases q2 _ h with h | h
          · rcases List.mem_cons.1 h with h | h
            · exact hAB h.symm
            · exact hS _ hVB h
          · exact (hV _ h).2 rfl
        refine ⟨hB, hq S' (fun x hx => q1 x (by simp [hx])) (fun x hx => ?_) (q1 _ (by simp)) hB⟩
        rcases q2 x hx with h | h
        · rcases List.mem_cons.1 h with rfl | h
          · exact Or.inr hVA
          · exact Or.inl h
        · exact Or.inr (hVk x h)
      by_cases hlt : x < 2 ^ k
      · rw [if_pos hlt, List.cons_append, List.append_assoc]
        rw [show min x (2 * 2 ^ k - x) = x by omega] at h7
        rw [innerA, List.cons_append]
        refine tryArcs_take _ (by simp only [remaining, h3, Bool.false_eq_true, if_false]; omega) (hS1 _ hVAk) ?_
        have := ih false x (by omega) (by simp) h7 (fun _ => hlt) (by simp) (fuel + 1) (A n (k + 1) :: S)
          ([⟨4 * k + 4, false, B n (k + 1), 2 ^ k⟩] ++ q) hS1
        simp only [start, Bool.false_eq_true, if_false, Bool.not_false, if_true] at this
        refine this fun S' q1 q2 q3 q4 => arriveB hs ht (by omega) q3 fun S'' r1 r2 => ?_
        unfold outerB
        rw [tryArcs_skip _ (Or.inl (by simp only [remaining, h5, if_true]; omega))]
        obtain ⟨g1, g2⟩ := fin S'' (fun x hx => r1 x (q1 x hx)) (fun x hx => (r2 x hx).elim (q2 x) Or.inr)
        exact tryArcs_take _ (by simp only [remaining, h4, Bool.false_eq_true, if_false]; omega) g1 g2
      · rw [if_neg hlt, List.cons_append, List.append_assoc]
        rw [show min x (2 * 2 ^ k - x) = 2 * 2 ^ k - x by omega] at h7
        rw [innerA, List.cons_append, tryArcs_skip _ (Or.inl (by simp only [remaining, h3, Bool.false_eq_true, if_false]; omega)), List.cons_append]
        refine tryArcs_take _ (by simp only [remaining, h5, Bool.false_eq_true, if_false]; omega) (hS1 _ hVBk) ?_
        have := ih true (2 * 2 ^ k - x) (by omega) (fun _ => by omega) h7 (by simp) (fun _ => by omega) (fuel + 1) (A n (k + 1) :: S)
          ([⟨4 * k + 3, false, B n (k + 1), 2 ^ k⟩] ++ q) hS1
        simp only [start, Bool.false_eq_true, if_false, Bool.not_true, if_true] at this
        refine this fun S' q1 q2 q3 q4 => arriveA hs ht (by omega) q3 fun S'' r1 r2 => ?_
        unfold outerA
        rw [tryArcs_skip _ (Or.inr (r1 _ (q1 _ (by simp))))]
        obtain ⟨g1, g2⟩ := fin S'' (fun x hx => r1 x (q1 x hx)) (fun x hx => (r2 x hx).elim (q2 x) Or.inr)
        exact tryArcs_take _ (by simp only [remaining, h6, Bool.false_eq_true, if_false]; omega) g1 g2
    · have hx := hb rfl
      simp only [start, Bool.not_true, Bool.false_eq_true, if_false, if_true] at hq ⊢
      rw [show fuel + (2 * (k + 1) + 1) = (fuel + 1 + (2 * k + 1)) + 1 by omega, dfs, if_neg (by rw [ht]; have := hd rfl; unfold B; omega),
        hs.b (k + 1) (hd rfl), path]
      have hS1 : ∀ v, V n k v → v ∉ B n (k + 1) :: S := by
        intro v hv
        rw [List.mem_cons, not_or]
        exact ⟨(hV v hv).2, hS v (hVk v hv)⟩
      have fin : ∀ S' : List Int, (∀ x ∈ B n (k + 1) :: S, x ∈ S') → (∀ x ∈ S', x ∈ B n (k + 1) :: S ∨ V n k x) →
          A n (k + 1) ∉ S' ∧ (dfs adj f t fuel S' (A n (k + 1))).2 = some q := by
        intro S' q1 q2
        have hA : A n (k + 1) ∉ S' := by
          intro h
          rcases q2 _ h with h | h
          · rcases List.mem_cons.1 h with h | h
            · exact hAB h
            · exact hS _ hVA h
          · exact (hV _ h).1 rfl
        refine ⟨hA, hq S' (fun x hx => q1 x (by simp [hx])) (fun x hx => ?_) (q1 _ (by simp)) hA⟩
        rcases q2 x hx with h | h
        · rcases List.mem_cons.1 h with rfl | h
          · exact Or.inr hVB
          · exact Or.inl h
        · exact Or.inr (hVk x h)
      by_cases hlt : 2 ^ k < x
      · rw [if_pos hlt, List.cons_append, List.append_assoc]
        rw [show min x (2 * 2 ^ k - x) = 2 * 2 ^ k - x by omega] at h7
        rw [innerB, List.cons_append]
        refine tryArcs_take _ (by simp only [remaining, h6, if_true]; omega) (hS1 _ hVAk) ?_
        have := ih false (2 * 2 ^ k - x) (by omega) (by simp) h7 (fun _ => by omega) (by simp) (fuel + 1) (B n (k + 1) :: S)
          ([⟨4 * k + 2, true, A n (k + 1), 2 ^ k⟩] ++ q) hS1
        simp only [start, Bool.false_eq_true, if_false, Bool.not_false, if_true] at this
        refine this fun S' q1 q2 q3 q4 => arriveB hs ht (by omega) q3 fun S'' r1 r2 => ?_
        unfold outerB
        obtain ⟨g1, g2⟩ := fin S'' (fun x hx => r1 x (q1 x hx)) (fun x hx => (r2 x hx).elim (q2 x) Or.inr)
        exact tryArcs_take _ (by simp only [remaining, h5, if_true]; omega) g1 g2
      · rw [if_neg hlt, List.cons_append, List.append_assoc]
        rw [show min x (2 * 2 ^ k - x) = x by omega] at h7
        rw [innerB, List.cons_append, tryArcs_skip _ (Or.inl (by simp only [remaining, h6, if_true]; omega)), List.cons_append]
        refine tryArcs_take _ (by simp only [remaining, h4, if_true]; omega) (hS1 _ hVBk) ?_
        have := ih true x (by omega) (fun _ => by omega) h7 (by simp) (fun _ => hx) (fuel + 1) (B n (k + 1) :: S)
          ([⟨4 * k + 1, true, A n (k + 1), 2 ^ k⟩] ++ q) hS1
        simp only [start, Bool.false_eq_true, if_false, Bool.not_true, if_true] at this
        refine this fun S' q1 q2 q3 q4 => arriveA hs ht (by omega) q3 fun S'' r1 r2 => ?_
        unfold outerA
        obtain ⟨g1, g2⟩ := fin S'' (fun x hx => r1 x (q1 x hx)) (fun x hx => (r2 x hx).elim (q2 x) Or.inr)
        exact tryArcs_take _ (by simp only [remaining, h3, if_true]; omega) g1 g2

end

/-! ## The algorithm -/

theorem shape (n : Nat) (hn : 0 < n) : Shape n (arcs (ffEdges n (n - 1))) := by
  refine ⟨fun k hk => ?_, fun k hk => ?_, ?_⟩
  · rw [arcs_A, if_pos (by omega)]
  · rw [arcs_B, if_pos (by omega)]
  · rw [arcs_A, if_neg (by omega), if_pos rfl]

/-- One augmentation. -/
theorem augment_step {n : Nat} (hn : 0 < n) {fuel : Nat} (hfuel : 2 * n ≤ fuel) {x : Int} {f : Nat → Int} (hst : St (n - 1) x f) (hx : x < 2 ^ (n - 1)) :
    ∃ f', augment (ffEdges n (n - 1)) fuel 0 (2 * n - 1) f = some (1, f') ∧ St (n - 1) (x + 1) f' := by
  have h1 := walk (shape n hn) (f := f) (t := B n (n - 1)) rfl (n - 1) false x (by omega) (by simp) hst (fun _ => hx) (by simp) (fuel - (2 * (n - 1) + 1)) [] [] (by simp)
    (fun S' _ _ _ _ => by
      simp only [start, Bool.not_false, if_true]
      obtain ⟨l, hl⟩ : ∃ l, fuel - (2 * (n - 1) + 1) = l + 1 := ⟨fuel - (2 * (n - 1) + 1) - 1, by omega⟩
      rw [hl, dfs, if_pos rfl])
  rw [Nat.sub_add_cancel (by omega), List.append_nil] at h1
  simp only [start, Bool.false_eq_true, if_false] at h1
  rw [show A n (n - 1) = 0 by unfold A; omega, show B n (n - 1) = 2 * n - 1 by unfold B; omega] at h1
  obtain ⟨h2, h3⟩ := path_residual n (n - 1) false x f hst (fun _ => hx) (by simp)
  obtain ⟨h4, -⟩ := path_push n (n - 1) false x f hst (fun _ => hx) (by simp)
  refine ⟨_, ?_, by simpa using h4⟩
  unfold augment
  rw [h1]
  simp only
  rw [bottleneck_one h2 h3]

/-- The end. -/
theorem augment_end {n : Nat} (hn : 0 < n) {fuel : Nat} {f : Nat → Int} (hst : St (n - 1) (2 ^ (n - 1)) f) :
    augment (ffEdges n (n - 1)) fuel 0 (2 * n - 1) f = none := by
  have h : (dfs (arcs (ffEdges n (n - 1))) f (2 * n - 1) fuel [] 0).2 = none := by
    cases fuel with
    | zero => rw [dfs]
    | succ fuel =>
      rw [dfs, if_neg (by omega)]
      have e := (shape n hn).lastA
      rw [show A n (n - 1) = 0 by unfold A; omega] at e
      rw [e]
      cases hk : n - 1 with
      | zero =>
        rw [hk] at hst
        obtain ⟨h1, -⟩ := hst
        rw [innerA, tryArcs_skip _ (Or.inl (by simp [remaining, h1])), tryArcs_nil]
      | succ k =>
        rw [hk] at hst
        obtain ⟨h1, h2, h3, h4, h5, h6, h7⟩ := hst
        have hp : (0 : Int) < 2 ^ k := by positivity
        rw [pow_succ] at h3 h5
        rw [innerA, tryArcs_skip _ (Or.inl (by simp only [remaining, h3, Bool.false_eq_true, if_false]; omega)),
          tryArcs_skip _ (Or.inl (by simp only [remaining, h5, Bool.false_eq_true, if_false]; omega)), tryArcs_nil]
  unfold augment
  rw [h]

theorem runs {n : Nat} (hn : 0 < n) {fuel : Nat} (hfuel : 2 * n ≤ fuel) : ∀ (r : Nat) (x : Int) (f : Nat → Int), St (n - 1) x f → x + r = 2 ^ (n - 1) →
    Runs (ffEdges n (n - 1)) fuel 0 (2 * n - 1) f (List.replicate r 1) := by
  intro r
  induction r with
  | zero =>
    intro x f h hx
    refine Runs.stop (augment_end hn ?_)
    rw [← hx]
    simpa using h
  | succ r ih =>
    intro x f h hx
    push_cast at hx
    obtain ⟨f', h1, h2⟩ := augment_step hn hfuel h (by omega)
    exact Runs.next h1 (ih (x + 1) f' h2 (by omega))

end ICPC.FFProof
