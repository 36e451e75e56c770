import Verif.Props.Shuffle
import Mathlib.GroupTheory.Perm.Cycle.Concrete
import Mathlib.GroupTheory.Perm.Cycle.Type
import Mathlib.Data.List.FinRange
import Mathlib.Data.List.Permutation
import Mathlib.Data.Set.List

/-!
# C06: `Random::perm(cycles, offset)`
-/

namespace ICPC.Props
open ICPC ICPC.Spec

/-- an index as a value -/
def finVal {n : Nat} (i : Fin n) : Int := (i.val : Int)

/-- the position after `j` in its cycle -/
def succRel : List Nat → Nat → Nat
  | [], j => j
  | c :: cs, j => if j < c then (if j + 1 = c then 0 else j + 1) else c + succRel cs (j - c)

theorem succRel_lt : ∀ (cs : List Nat) (j : Nat), j < cs.sum → succRel cs j < cs.sum := by
  intro cs
  induction cs with
  | nil => intro j h; simp at h
  | cons c cs ih =>
    intro j h
    rw [List.sum_cons] at *
    unfold succRel
    split
    · split <;> omega
    · have := ih (j - c) (by omega); omega

section loops
variable {n : Nat} {pf : List (Fin n)} {offset : Int}

theorem assignCycle_ok (hoff : ∀ i : Fin n, I64 (finVal i + offset)) {j j' : Nat} (hj : j < pf.length) (hj' : j' < pf.length) {res : List Int}
    (hres : res.length = n) :
    assignCycle (pf.map finVal) offset j j' res = .ok (res.set pf[j].val (finVal pf[j'] + offset)) := by
  unfold assignCycle
  rw [Int.toNat_natCast, Int.toNat_natCast, List.getElem?_eq_getElem (by simpa using hj), List.getElem?_eq_getElem (by simpa using hj')]
  simp only [List.getElem_map]
  rw [chk_ok (hoff _), ok_bind, if_pos]
  · rfl
  · have := pf[j].isLt
    exact ⟨by unfold finVal; omega, by unfold finVal; rw [Int.toNat_natCast]; omega⟩

theorem cycleInner_ok (hoff : ∀ i : Fin n, I64 (finVal i + offset)) (hnd : pf.Nodup) : ∀ (m tmp : Nat) (res : List Int), res.length = n →
    (hlt : tmp + m < pf.length) → ∃ res', cycleInner (pf.map finVal) offset m tmp res = .ok res' ∧ res'.length = n ∧
      (∀ j (_ : tmp ≤ j) (h : j < tmp + m), res'[(pf[j]'(by omega)).val]? = some (finVal (pf[j + 1]'(by omega)) + offset)) ∧
      (∀ j (h : j < pf.length), (j < tmp ∨ tmp + m ≤ j) → res'[pf[j].val]? = res[pf[j].val]?) := by
  intro m
  induction m with
  | zero =>
    intro tmp res hres _
    exact ⟨res, rfl, hres, fun j h1 h2 => by omega, fun j h _ => rfl⟩
  | succ m ih =>
    intro tmp res hres hlt
    unfold cycleInner
    have := assignCycle_ok hoff (j := tmp) (j' := tmp + 1) (pf := pf) (by omega) (by omega) hres
    push_cast at this
    rw [this, ok_bind]
    obtain ⟨res', h1, h2, h3, h4⟩ := ih (tmp + 1) (res.set (pf[tmp]'(by omega)).val (finVal (pf[tmp + 1]'(by omega)) + offset))
      (by simpa using hres) (by omega)
    refine ⟨res', by rw [← h1]; push_cast; rfl, h2, fun j hj1 hj2 => ?_, fun j hj hor => ?_⟩
    · by_cases hjt : j = tmp
      · subst hjt
        rw [h4 j (by omega) (by omega), List.getElem?_set_self (by rw [hres]; exact (pf[j]).isLt)]
      · exact h3 j (by omega) (by omega)
    · rw [h4 j hj (by omega), List.getElem?_set_ne]
      intro h
      have := (hnd.getElem_inj_iff).1 (Fin.ext h)
      omega

theorem cycleOuter_cons (p : List Int) (offset c : Int) (cs : List Int) (tmp : Int) (res : List Int) :
    cycleOuter p offset (c :: cs) tmp res = (judgeAssert (decide (c > 0)) >>= fun _ =>
      cycleInner p offset (c - 1).toNat tmp res >>= fun res1 =>
        assignCycle p offset (tmp + c - 1) tmp res1 >>= fun res2 => cycleOuter p offset cs (tmp + c) res2) := rfl

theorem cycleOuter_ok (hoff : ∀ i : Fin n, I64 (finVal i + offset)) (hnd : pf.Nodup) (more : List Int) : ∀ (cs : List Nat) (tmp : Nat) (res : List Int),
    (∀ c ∈ cs, 0 < c) → res.length = n → (hle : tmp + cs.sum ≤ pf.length) →
    ∃ res', cycleOuter (pf.map finVal) offset (cs.map Int.ofNat ++ more) tmp res = cycleOuter (pf.map finVal) offset more ((tmp + cs.sum : Nat) : Int) res' ∧
      res'.length = n ∧
      (∀ j (h : j < cs.sum), res'[(pf[tmp + j]'(by omega)).val]? = some (finVal (pf[tmp + succRel cs j]'(by
        have := succRel_lt cs j h; omega)) + offset)) ∧
      (∀ j (h : j < pf.length), (j < tmp ∨ tmp + cs.sum ≤ j) → res'[pf[j].val]? = res[pf[j].val]?) := by
  intro cs
  induction cs with
  | nil =>
    intro tmp res _ hres _
    exact ⟨res, by simp, hres, fun j h => by simp at h, fun j h _ => rfl⟩
  | cons c cs ih =>
    intro tmp res hpos hres hle
    have hc := hpos c (by simp)
    rw [List.sum_cons] at hle
    rw [List.map_cons, List.cons_append, cycleOuter_cons]
    rw [decide_eq_true (by simpa using hc), judgeAssert_true, ok_bind]
    obtain ⟨r1, e1, l1, a1, b1⟩ := cycleInner_ok hoff hnd (c - 1) tmp res hres (by omega)
    rw [show (Int.ofNat c - 1).toNat = c - 1 by simp, e1, ok_bind]
    have e2 := assignCycle_ok hoff (j := tmp + c - 1) (j' := tmp) (pf := pf) (by omega) (by omega) l1
    rw [show ((tmp + c - 1 : Nat) : Int) = (tmp : Int) + Int.ofNat c - 1 by simp; omega] at e2
    rw [e2, ok_bind]
    obtain ⟨r3, e3, l3, a3, b3⟩ := ih (tmp + c) (r1.set (pf[tmp + c - 1]'(by omega)).val (finVal (pf[tmp]'(by omega)) + offset))
      (fun x hx => hpos x (by simp [hx])) (by simpa using l1) (by omega)
    refine ⟨r3, ?_, l3, fun j hj => ?_, fun j hj hor => ?_⟩
    · rw [List.sum_cons, ← Nat.add_assoc]; exact e3
    · by_cases hjc : j < c
      · rw [b3 _ (by omega) (by omega)]
        have hs : succRel (c :: cs) j = if j + 1 = c then 0 else j + 1 := by rw [succRel, if_pos hjc]
        by_cases hjl : j + 1 = c
        · rw [if_pos hjl] at hs
          have e : tmp + j = tmp + c - 1 := by omega
          simp only [hs, e, Nat.add_zero]
          rw [List.getElem?_set_self (by rw [l1]; exact (pf[tmp + c - 1]).isLt)]
        · rw [if_neg hjl] at hs
          simp only [hs]
          rw [List.getElem?_set_ne, a1 (tmp + j) (by omega) (by omega)]
          · rfl
          · intro h
            have := (hnd.getElem_inj_iff).1 (Fin.ext h)
            omega
      · have hs : succRel (c :: cs) j = c + succRel cs (j - c) := by rw [succRel, if_neg hjc]
        rw [List.sum_cons] at hj
        have := a3 (j - c) (by omega)
        simp only [hs]
        simp only [show tmp + c + (j - c) = tmp + j by omega, Nat.add_assoc] at this
        exact this
    · rw [List.sum_cons] at hor
      rw [b3 j hj (by omega), List.getElem?_set_ne, b1 j hj (by omega)]
      intro h
      have := (hnd.getElem_inj_iff).1 (Fin.ext h)
      omega

end loops

/-- the cycles: consecutive parts of `pf` -/
def blocks {α : Type} : List Nat → List α → List (List α)
  | [], _ => []
  | c :: cs, l => l.take c :: blocks cs (l.drop c)

theorem blocks_flatten {α : Type} : ∀ (cs : List Nat) (l : List α), cs.sum = l.length → (blocks cs l).flatten = l := by
  intro cs
  induction cs with
  | nil => intro l h; simp at h; simp [blocks, List.length_eq_zero_iff.1 h.symm]
  | cons c cs ih =>
    intro l h
    rw [List.sum_cons] at h
    rw [blocks, List.flatten_cons, ih _ (by rw [List.length_drop]; omega), List.take_append_drop]

theorem blocks_lengths {α : Type} : ∀ (cs : List Nat) (l : List α), cs.sum = l.length → (blocks cs l).map List.length = cs := by
  intro cs
  induction cs with
  | nil => intro l h; rfl
  | cons c cs ih =>
    intro l h
    rw [List.sum_cons] at h
    rw [blocks, List.map_cons, ih _ (by rw [List.length_drop]; omega), List.length_take, Nat.min_eq_left (by omega)]

/-- the permutation with these cycles -/
def cyclePerm {n : Nat} (cs : List Nat) (pf : List (Fin n)) : Equiv.Perm (Fin n) := ((blocks cs pf).map List.formPerm).prod

theorem cyclePerm_notMem {n : Nat} : ∀ (cs : List Nat) (pf : List (Fin n)) (x : Fin n), x ∉ pf → cyclePerm cs pf x = x := by
  intro cs
  induction cs with
  | nil => intro pf x _; rfl
  | cons c cs ih =>
    intro pf x hx
    have h1 := ih (pf.drop c) x fun h => hx (List.mem_of_mem_drop h)
    unfold cyclePerm at *
    rw [blocks, List.map_cons, List.prod_cons, Equiv.Perm.mul_apply, h1]
    exact List.formPerm_apply_of_notMem fun h => hx (List.mem_of_mem_take h)

theorem cyclePerm_apply {n : Nat} : ∀ (cs : List Nat) (pf : List (Fin n)), pf.Nodup → (hs : cs.sum = pf.length) → ∀ j (h : j < pf.length),
    cyclePerm cs pf pf[j] = pf[succRel cs j]'(by have := succRel_lt cs j (by omega); omega) := by
  intro cs
  induction cs with
  | nil => intro pf _ hs j h; simp at hs; omega
  | cons c cs ih =>
    intro pf hnd hs j h
    rw [List.sum_cons] at hs
    have hnd' := hnd
    rw [← List.take_append_drop c pf, List.nodup_append] at hnd'
    obtain ⟨n1, n2, n3⟩ := hnd'
    have hsplit : cyclePerm (c :: cs) pf = (pf.take c).formPerm * cyclePerm cs (pf.drop c) := by
      unfold cyclePerm; rw [blocks, List.map_cons, List.prod_cons]
    rw [hsplit, Equiv.Perm.mul_apply]
    by_cases hjc : j < c
    · have hm : pf[j] ∈ pf.take c := by
        rw [List.mem_take_iff_getElem]; exact ⟨j, by omega, rfl⟩
      rw [cyclePerm_notMem cs _ _ fun hm' => n3 _ hm _ hm' rfl]
      have e : pf[j] = (pf.take c)[j]'(by rw [List.length_take]; omega) := by rw [List.getElem_take]
      rw [e, List.formPerm_apply_getElem _ n1, List.getElem_take]
      have hlen : (pf.take c).length = c := by rw [List.length_take]; omega
      have hsr : succRel (c :: cs) j = if j + 1 = c then 0 else j + 1 := by rw [succRel, if_pos hjc]
      simp only [hlen, hsr]
      congr 1
      by_cases hj1 : j + 1 = c
      · rw [if_pos hj1, hj1, Nat.mod_self]
      · rw [if_neg hj1, Nat.mod_eq_of_lt (by omega)]
    · have hdl : (pf.drop c).length = pf.length - c := List.length_drop
      have e : pf[j] = (pf.drop c)[j - c]'(by omega) := by
        rw [List.getElem_drop]; congr 1; omega
      rw [e, ih (pf.drop c) n2 (by omega) (j - c) (by omega)]
      have hsr : succRel (c :: cs) j = c + succRel cs (j - c) := by rw [succRel, if_neg hjc]
      have hlt := succRel_lt cs (j - c) (by omega)
      rw [List.formPerm_apply_of_notMem fun hm' => n3 _ hm' _ (List.getElem_mem (by omega)) rfl]
      simp only [hsr, List.getElem_drop]

theorem cyclePerm_type {n : Nat} (cs : List Nat) (pf : List (Fin n)) (hnd : pf.Nodup) (hs : cs.sum = pf.length) :
    (cyclePerm cs pf).cycleType = ((cs.filter (2 ≤ ·) : List Nat) : Multiset Nat) := by
  have hfl := blocks_flatten cs pf hs
  have hbn : (∀ l ∈ blocks cs pf, l.Nodup) ∧ (blocks cs pf).Pairwise List.Disjoint := by
    rw [← List.nodup_flatten, hfl]; exact hnd
  have hprod : (((blocks cs pf).filter fun l => decide (2 ≤ l.length)).map List.formPerm).prod = cyclePerm cs pf := by
    unfold cyclePerm
    have h1 := hbn.1
    generalize blocks cs pf = L at h1
    induction L with
    | nil => rfl
    | cons l L ih =>
      have := ih fun l hl => h1 l (by simp [hl])
      by_cases hl : 2 ≤ l.length
      · rw [List.filter_cons_of_pos (by simpa using hl), List.map_cons, List.prod_cons, this, List.map_cons, List.prod_cons]
      · rw [List.filter_cons_of_neg (by simpa using hl), this, List.map_cons, List.prod_cons,
          (List.formPerm_eq_one_iff l (h1 l (by simp))).2 (by omega), one_mul]
  rw [Equiv.Perm.cycleType_eq _ hprod]
  · rw [Multiset.coe_eq_coe, List.map_map]
    have : ∀ l ∈ (blocks cs pf).filter fun l => decide (2 ≤ l.length), ((Finset.card ∘ Equiv.Perm.support) ∘ List.formPerm) l = l.length := by
      intro l hl
      rw [List.mem_filter] at hl
      have h2 : 2 ≤ l.length := by simpa using hl.2
      show (l.formPerm.support).card = _
      rw [List.support_formPerm_of_nodup l (hbn.1 l hl.1) (by rintro x rfl; simp at h2), List.toFinset_card_of_nodup (hbn.1 l hl.1)]
    rw [List.map_congr_left this]
    have h2 := blocks_lengths cs pf hs
    conv_rhs => rw [← h2]
    rw [List.filter_map]
    exact List.Perm.refl _
  · intro σ hσ
    rw [List.mem_map] at hσ
    obtain ⟨l, hl, rfl⟩ := hσ
    rw [List.mem_filter] at hl
    exact List.isCycle_formPerm (hbn.1 l hl.1) (by simpa using hl.2)
  · rw [List.pairwise_map]
    have hp := hbn.2.filter (fun l => decide (2 ≤ l.length))
    refine hp.imp_of_mem fun {a b} ha hb hab => ?_
    rw [List.mem_filter] at ha hb
    exact (List.formPerm_disjoint_iff (hbn.1 a ha.1) (hbn.1 b hb.1) (by simpa using ha.2) (by simpa using hb.2)).2 hab

theorem finVal_injective {n : Nat} : Function.Injective (finVal : Fin n → Int) := by
  intro a b h
  unfold finVal at h
  exact Fin.ext (by exact_mod_cast h)

theorem interval_finVal (n : Nat) : interval 0 n = (List.finRange n).map finVal := by
  unfold interval finVal
  rw [← List.map_coe_finRange_eq_range, List.map_map]
  apply List.map_congr_left
  intro i _
  simp

theorem exists_fin_of_perm {n : Nat} {p : List Int} (h : p.Perm (interval 0 n)) :
    ∃ pf : List (Fin n), p = pf.map finVal ∧ pf.Perm (List.finRange n) := by
  rw [interval_finVal] at h
  have hr : p ∈ Set.range (List.map (finVal : Fin n → Int)) := by
    rw [Set.range_list_map]
    intro x hx
    have := h.subset hx
    rw [List.mem_map] at this
    obtain ⟨i, _, rfl⟩ := this
    exact ⟨i, rfl⟩
  obtain ⟨pf, rfl⟩ := hr
  exact ⟨pf, rfl, (List.map_perm_map_iff finVal_injective).1 h⟩

theorem accumulate_eq : ∀ (cs : List Nat) (s : Nat) (_ : s + cs.sum < 2 ^ 63), accumulate s (cs.map Int.ofNat) = .ok ((s + cs.sum : Nat) : Int) := by
  intro cs
  induction cs with
  | nil => intro s h; simp [accumulate]
  | cons c cs ih =>
    intro s h
    rw [List.sum_cons] at h
    rw [List.map_cons, accumulate]
    have e : (s : Int) + Int.ofNat c = ((s + c : Nat) : Int) := by simp
    rw [e, chk_ok (i64_nat (by omega)), ok_bind, ih (s + c) (by omega), List.sum_cons, Nat.add_assoc]

/-- the table of a permutation of `0 .. n-1`, shifted by `offset` -/
def permTable {n : Nat} (offset : Int) (σ : Equiv.Perm (Fin n)) : List Int := List.ofFn fun i => finVal (σ i) + offset

theorem permTable_injective {n : Nat} (offset : Int) {σ τ : Equiv.Perm (Fin n)} (h : permTable offset σ = permTable offset τ) : σ = τ := by
  unfold permTable at h
  have := List.ofFn_injective h
  ext i
  have h2 := congrFun this i
  simp only [add_left_inj] at h2
  rw [finVal_injective h2]

theorem cycleOuter_table {n : Nat} {offset : Int} (hoff : ∀ i : Fin n, I64 (finVal i + offset)) (cs : List Nat) (hpos : ∀ c ∈ cs, 0 < c)
    (hsum : cs.sum = n) (pf : List (Fin n)) (hp : pf.Perm (List.finRange n)) :
    cycleOuter (pf.map finVal) offset (cs.map Int.ofNat) 0 (List.replicate (pf.map finVal).length 0) =
      .ok (permTable offset (cyclePerm cs pf)) := by
  have hnd : pf.Nodup := hp.nodup_iff.2 (List.nodup_finRange n)
  have hlen : pf.length = n := by rw [hp.length_eq]; simp
  obtain ⟨res, h1, h2, h3, h4⟩ := cycleOuter_ok hoff hnd [] cs 0 (List.replicate (pf.map finVal).length 0) hpos (by simp [hlen]) (by omega)
  rw [List.append_nil] at h1
  show cycleOuter _ offset _ ((0 : Nat) : Int) _ = _
  rw [h1]
  show Except.ok res = _
  congr 1
  apply List.ext_getElem?
  intro k
  by_cases hk : k < n
  · have hmem : (⟨k, hk⟩ : Fin n) ∈ pf := hp.mem_iff.2 (List.mem_finRange _)
    obtain ⟨j, hj, e⟩ := List.getElem_of_mem hmem
    have h5 := h3 j (by omega)
    have h6 := cyclePerm_apply cs pf hnd (by omega) j hj
    simp only [Nat.zero_add] at h5
    rw [← h6, e] at h5
    rw [h5]
    unfold permTable
    rw [List.getElem?_eq_getElem (by simpa using hk), List.getElem_ofFn]
  · rw [List.getElem?_eq_none (by omega), List.getElem?_eq_none (by simp [permTable]; omega)]

theorem permOf_fin {N : Nat} (h64 : N < 2 ^ 63) :
    SatOk (permOf N 0) fun p => ∃ pf : List (Fin N), p = pf.map finVal ∧ pf.Perm (List.finRange N) := by
  have hI : I64 N := i64_nat h64
  have hI0 : I64 ((0 : Int) + N) := by rw [Int.zero_add]; exact hI
  refine SatOk.mono (C05_perm (N : Int) 0 (Int.natCast_nonneg N) i64_zero hI0 hI) fun p hp => ?_
  obtain ⟨hlen, hperm⟩ := hp
  rw [Int.toNat_natCast] at hlen
  unfold IsPermutationFrom at hperm
  rw [hlen] at hperm
  exact exists_fin_of_perm hperm

theorem permOf_fin_prob {N : Nat} (h64 : N < 2 ^ 63) (pf : List (Fin N)) (hpf : pf.Perm (List.finRange N)) :
    prob (permOf N 0) (pf.map finVal) = 1 / (N.factorial : ℚ) := by
  have hI : I64 N := i64_nat h64
  have hI0 : I64 ((0 : Int) + N) := by rw [Int.zero_add]; exact hI
  have hl : (pf.map finVal).length = N := by rw [List.length_map, hpf.length_eq]; simp
  have := C05_perm_uniform (N : Int) 0 (Int.natCast_nonneg N) i64_zero hI0 hI (pf.map finVal) (by rw [hl, Int.toNat_natCast])
    (by unfold IsPermutationFrom; rw [hl, interval_finVal]; exact hpf.map _)
  rw [this, Int.toNat_natCast]

theorem permCycles_unfold (cs : List Nat) (offset : Int) (h64 : cs.sum < 2 ^ 63) :
    permCycles (cs.map Int.ofNat) offset = permOf (cs.sum : Nat) 0 >>= fun p =>
      .done (cycleOuter p offset (cs.map Int.ofNat) 0 (List.replicate p.length 0)) := by
  unfold permCycles
  have := accumulate_eq cs 0 (by omega)
  rw [show ((0 : Nat) : Int) = 0 by rfl, Nat.zero_add] at this
  rw [this, Rand.lift_ok, Rand.bind_done_ok]
  rfl

/-- **C06.** For positive cycle lengths `cs` with representable sum `n` (and representable values `offset .. offset+n-1`),
`Random::perm(cycles, offset)` returns the table of a permutation of `0 .. n-1`, shifted by `offset`, whose cycles
have exactly the given lengths (the cycle type of a permutation lists the cycles of length at least 2; the remaining
elements are fixed). -/
theorem C06_cycle_type (cs : List Nat) (offset : Int) (hpos : ∀ c ∈ cs, 0 < c) (h64 : cs.sum < 2 ^ 63)
    (ho : I64 offset) (ho' : I64 (offset + cs.sum)) :
    SatOk (permCycles (cs.map Int.ofNat) offset) fun res => ∃ σ : Equiv.Perm (Fin cs.sum),
      res = List.ofFn (fun i => ((σ i : Nat) : Int) + offset) ∧ σ.cycleType = ((cs.filter (2 ≤ ·) : List Nat) : Multiset Nat) := by
  rw [permCycles_unfold cs offset h64]
  refine SatOk.bind (permOf_fin h64) fun p hp => ?_
  obtain ⟨pf, rfl, hpf⟩ := hp
  have hoff : ∀ i : Fin cs.sum, I64 (finVal i + offset) := by
    intro i
    have := i.isLt
    unfold finVal
    exact i64_of_le ho ho' (by omega) (by omega)
  rw [cycleOuter_table hoff cs hpos rfl pf hpf]
  exact satOk_done ⟨cyclePerm cs pf, rfl, cyclePerm_type cs pf (hpf.nodup_iff.2 (List.nodup_finRange _)) (by rw [hpf.length_eq]; simp)⟩

theorem expect_uniform {α : Type} [DecidableEq α] {r : Rand α} {S : Finset α} {c : ℚ} (hs : SatOk r (· ∈ S)) (hp : ∀ a ∈ S, prob r a = c)
    (g : α → ℚ) : expect r g = ∑ a ∈ S, c * g a := by
  have e : expect r g = expect r fun a => ∑ b ∈ S, g b * (if a = b then 1 else 0) := by
    refine expect_congr_ok hs fun a ha => ?_
    simp only [mul_ite, mul_one, mul_zero]
    rw [Finset.sum_ite_eq, if_pos ha]
  rw [e, expect_sum]
  refine Finset.sum_congr rfl fun b hb => ?_
  rw [expect_smul]
  have := hp b hb
  unfold prob at this
  rw [this]; ring

theorem cyclePerm_conj {n : Nat} (cs : List Nat) (pf : List (Fin n)) (hp : pf.Perm (List.finRange n)) (hs : cs.sum = pf.length)
    (π : Equiv.Perm (Fin n)) : cyclePerm cs (pf.map π) = π * cyclePerm cs pf * π⁻¹ := by
  have hnd : pf.Nodup := hp.nodup_iff.2 (List.nodup_finRange n)
  ext1 i
  have hmem : π⁻¹ i ∈ pf := hp.mem_iff.2 (List.mem_finRange _)
  obtain ⟨j, hj, e⟩ := List.getElem_of_mem hmem
  have h1 := cyclePerm_apply cs pf hnd hs j hj
  have h2 := cyclePerm_apply cs (pf.map π) (hnd.map π.injective) (by simpa using hs) j (by simpa using hj)
  simp only [List.getElem_map] at h2
  rw [← h1, e] at h2
  rw [show π (π⁻¹ i) = i by simp] at h2
  rw [h2]; rfl

/-- **C06.** Permutations with the same cycle structure are equally likely. -/
theorem C06_uniform (cs : List Nat) (offset : Int) (hpos : ∀ c ∈ cs, 0 < c) (h64 : cs.sum < 2 ^ 63)
    (ho : I64 offset) (ho' : I64 (offset + cs.sum)) (σ τ : Equiv.Perm (Fin cs.sum)) (hστ : σ.cycleType = τ.cycleType) :
    prob (permCycles (cs.map Int.ofNat) offset) (List.ofFn fun i => ((σ i : Nat) : Int) + offset) =
      prob (permCycles (cs.map Int.ofNat) offset) (List.ofFn fun i => ((τ i : Nat) : Int) + offset) := by
  obtain ⟨π, hπ⟩ := isConj_iff.1 (Equiv.Perm.isConj_iff_cycleType_eq.2 hστ)
  rw [permCycles_unfold cs offset h64, prob_bind, prob_bind]
  have hoff : ∀ i : Fin cs.sum, I64 (finVal i + offset) := by
    intro i
    have := i.isLt
    unfold finVal
    exact i64_of_le ho ho' (by omega) (by omega)
  let S : Finset (List Int) := ((List.finRange cs.sum).permutations.map (List.map finVal)).toFinset
  have hmemS : ∀ a : List Int, a ∈ S ↔ ∃ pf : List (Fin cs.sum), pf.Perm (List.finRange cs.sum) ∧ pf.map finVal = a := by
    intro a
    simp only [S, List.mem_toFinset, List.mem_map, List.mem_permutations]
  have hsat : SatOk (permOf (cs.sum : Nat) 0) (· ∈ S) := by
    refine SatOk.mono (permOf_fin h64) fun p hp => ?_
    obtain ⟨pf, rfl, hpf⟩ := hp
    exact (hmemS _).2 ⟨pf, hpf, rfl⟩
  have hprob : ∀ a ∈ S, prob (permOf (cs.sum : Nat) 0) a = 1 / (cs.sum.factorial : ℚ) := by
    intro a ha
    obtain ⟨pf, hpf, rfl⟩ := (hmemS a).1 ha
    exact permOf_fin_prob h64 pf hpf
  rw [expect_uniform hsat hprob, expect_uniform hsat hprob]
  -- reindex by conjugation
  let f : List Int → List Int := fun a => a.map fun x => if h : x.toNat < cs.sum then finVal (π ⟨x.toNat, h⟩) else x
  have hf : ∀ pf : List (Fin cs.sum), f (pf.map finVal) = (pf.map π).map finVal := by
    intro pf
    simp only [f, List.map_map]
    apply List.map_congr_left
    intro i _
    have hi := i.isLt
    have hi' : (finVal i).toNat < cs.sum := by unfold finVal; rw [Int.toNat_natCast]; exact hi
    show (if h : (finVal i).toNat < cs.sum then finVal (π ⟨(finVal i).toNat, h⟩) else finVal i) = finVal (π i)
    rw [dif_pos hi']
    rfl
  have hπp : ∀ pf : List (Fin cs.sum), pf.Perm (List.finRange cs.sum) → ∀ ρ : Equiv.Perm (Fin cs.sum), (pf.map ρ).Perm (List.finRange cs.sum) := by
    intro pf hpf ρ
    refine (List.perm_ext_iff_of_nodup ((hpf.nodup_iff.2 (List.nodup_finRange _)).map ρ.injective) (List.nodup_finRange _)).2 fun i => ?_
    simp only [List.mem_finRange, iff_true, List.mem_map]
    exact ⟨ρ⁻¹ i, hpf.mem_iff.2 (List.mem_finRange _), by simp⟩
  refine Finset.sum_bij (fun a _ => f a) ?_ ?_ ?_ ?_
  · intro a ha
    obtain ⟨pf, hpf, rfl⟩ := (hmemS a).1 ha
    rw [hf]
    exact (hmemS _).2 ⟨_, hπp pf hpf π, rfl⟩
  · intro a ha b hb hab
    obtain ⟨pf, hpf, rfl⟩ := (hmemS a).1 ha
    obtain ⟨qf, hqf, rfl⟩ := (hmemS b).1 hb
    rw [hf, hf] at hab
    have h1 := (List.map_injective_iff.2 finVal_injective) hab
    rw [(List.map_injective_iff.2 π.injective) h1]
  · intro b hb
    obtain ⟨qf, hqf, rfl⟩ := (hmemS b).1 hb
    refine ⟨(qf.map (π⁻¹ : Equiv.Perm (Fin cs.sum))).map finVal, (hmemS _).2 ⟨_, hπp qf hqf π⁻¹, rfl⟩, ?_⟩
    rw [hf]
    have : (qf.map (π⁻¹ : Equiv.Perm (Fin cs.sum))).map π = qf := by
      rw [List.map_map]
      conv_rhs => rw [← List.map_id qf]
      apply List.map_congr_left
      intro i _
      simp
    rw [this]
  · intro a ha
    obtain ⟨pf, hpf, rfl⟩ := (hmemS a).1 ha
    rw [hf, cycleOuter_table hoff cs hpos rfl pf hpf, cycleOuter_table hoff cs hpos rfl _ (hπp pf hpf π), prob_done, prob_done,
      cyclePerm_conj cs pf hpf (by rw [hpf.length_eq]; simp)]
    congr 1
    congr 1
    apply propext
    constructor
    · intro h
      have := permTable_injective offset (τ := σ) h
      rw [this, hπ]; rfl
    · intro h
      have h2 := permTable_injective offset (τ := τ) h
      rw [← hπ] at h2
      have : cyclePerm cs pf = σ := by simpa using h2
      rw [this]; rfl

/-- A cycle length 0 after positive ones throws. -/
theorem C06_zero_throws (cs more : List Nat) (offset : Int) (hpos : ∀ c ∈ cs, 0 < c) (h64 : (cs ++ 0 :: more).sum < 2 ^ 63)
    (ho : I64 offset) (ho' : I64 (offset + (cs ++ 0 :: more).sum)) :
    Sat (permCycles ((cs ++ 0 :: more).map Int.ofNat) offset) fun o => o = .error .throw := by
  rw [permCycles_unfold _ offset h64]
  generalize hN : (cs ++ 0 :: more).sum = N at *
  have hcs : cs.sum ≤ N := by rw [← hN, List.sum_append]; omega
  refine Sat.bind (permOf_fin h64) (fun p hp => ?_) (fun e he => by obtain ⟨_, h, _⟩ := he; cases h)
  obtain ⟨p', e, hp⟩ := hp
  cases e
  obtain ⟨pf, rfl, hpf⟩ := hp
  have hoff : ∀ i : Fin N, I64 (finVal i + offset) := by
    intro i
    have := i.isLt
    unfold finVal
    exact i64_of_le ho ho' (by omega) (by omega)
  have hlen : pf.length = N := by rw [hpf.length_eq]; simp
  obtain ⟨res, h1, _⟩ := cycleOuter_ok hoff (hpf.nodup_iff.2 (List.nodup_finRange N)) ((0 :: more).map Int.ofNat) cs 0
    (List.replicate (pf.map finVal).length 0) hpos (by simp [hlen]) (by omega)
  rw [List.map_append]
  show cycleOuter (pf.map finVal) offset _ ((0 : Nat) : Int) _ = _
  rw [h1]
  rfl

/-- Negative cycle lengths are not always rejected: the sum of `5, -3` is 2, and the first cycle is written outside of
the vector before the negative entry is seen. -/
theorem C06_negative_refuted : (permCycles [5, -3] 0).run true [1] = some (.error .ub, []) := by decide +kernel

example : (permCycles [2, 1] 1).run true [1, 1] = some (.ok [1, 3, 2], []) := by decide +kernel

end ICPC.Props
