import Verif.Model.Basic

/-!
# The generator xoshiro256** (src/rng.h)
-/

namespace ICPC

/-- The array `state` of `Xoshiro256ss` (src/rng.h 24). -/
@[ext] structure Xoshiro where
  s0 : BitVec 64
  s1 : BitVec 64
  s2 : BitVec 64
  s3 : BitVec 64
  deriving DecidableEq

/-- The initial value of `state` (src/rng.h 24-29). -/
def Xoshiro.pi : Xoshiro :=
  { s0 := 0x3243F6a8885a308d, s1 := 0x313198a2e0370734, s2 := 0x4a4093822299f31d, s3 := 0x0082efa98ec4e6c8 }

/-- `rotateLeft` (src/rng.h 31-33). -/
def rotateLeft (x : BitVec 64) (k : Nat) : BitVec 64 := (x <<< k) ||| (x >>> (64 - k))

/-- `operator()` (src/rng.h 46-56): the result and the new state. -/
def Xoshiro.next (s : Xoshiro) : BitVec 64 × Xoshiro :=
  let result := rotateLeft (s.s1 * 5) 7 * 9
  let tmp := s.s1 <<< 17
  let s2 := s.s2 ^^^ s.s0
  let s3 := s.s3 ^^^ s.s1
  let s1 := s.s1 ^^^ s2
  let s0 := s.s0 ^^^ s3
  let s2 := s2 ^^^ tmp
  let s3 := rotateLeft s3 45
  (result, { s0 := s0, s1 := s1, s2 := s2, s3 := s3 })

/-- The four assignments `newState[i] ^= state[i]` (src/rng.h 70-73). -/
def Xoshiro.xor (a b : Xoshiro) : Xoshiro :=
  { s0 := a.s0 ^^^ b.s0, s1 := a.s1 ^^^ b.s1, s2 := a.s2 ^^^ b.s2, s3 := a.s3 ^^^ b.s3 }

/-- The array `jumps` (src/rng.h 59-64). -/
def jumpWords : List (BitVec 64) := [0x180ec6d33cfd0aba, 0xd5a61266f0c9392c, 0xa9582618e03fc9aa, 0x39abdc4529b1661c]

/-- The inner loop of `jump` (src/rng.h 68-76) for one word; the pair is (newState, state). -/
def jumpWord (p : Xoshiro × Xoshiro) (w : BitVec 64) : Xoshiro × Xoshiro :=
  (List.range 64).foldl (fun p b =>
    (if w &&& ((1 : BitVec 64) <<< b) ≠ 0 then p.1.xor p.2 else p.1, p.2.next.2)) p

/-- `jump` (src/rng.h 58-79). -/
def Xoshiro.jump (s : Xoshiro) : Xoshiro :=
  (jumpWords.foldl jumpWord ({ s0 := 0, s1 := 0, s2 := 0, s3 := 0 }, s)).1

/-- The constructor with one word as seed (src/rng.h 36-44). -/
def Xoshiro.ofSeed (seed : BitVec 64) : Xoshiro :=
  (Xoshiro.pi.xor { s0 := seed, s1 := seed, s2 := seed, s3 := seed }).jump

/-- The state after `n` calls of `operator()`. -/
def Xoshiro.steps : Nat → Xoshiro → Xoshiro
  | 0, s => s
  | n + 1, s => Xoshiro.steps n s.next.2

end ICPC
