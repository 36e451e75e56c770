M='Model/'
S=['Verif.Props.Seq']
C=['Verif.Props.Chars']
N=['Verif.Props.Num']
MUTS=[
(M+'Seq.lean','if d ≥ (count : Int) then','if d > (count : Int) then','isPermLoop','`x - offset >= count` becomes `>`','C17: a value just outside of the interval is rejected, without an access out of bounds',S),
(M+'Seq.lean','isPermLoop offset count xs (seen.set d.toNat true)','isPermLoop offset count xs seen','isPermLoop','the seen flag is never set','C17: repeated values are rejected',S),
(M+'Seq.lean','if x < offset then .ok { value := false, reason := some x }','if x < offset then .ok { value := false, reason := some offset }','isPermLoop','wrong offending value reported for too small entries','C17: the reason is an offending entry',S),
(M+'Seq.lean','if a.length ≠ b.length then { value := false }\n  else','','isPermOf','length check dropped','C18: ranges of different length are no permutations',S),
(M+'Seq.lean','anyAdjacentLoop p xs 1','anyAdjacentLoop p xs 0','anyAdjacent','reported position off by one','C19: position of the first adjacent pair',S),
(M+'Seq.lean','allAdjacent (fun x y => decide (x < y)) xs','allAdjacent (fun x y => decide (x ≤ y)) xs','areIncreasing','< becomes <=','C20: areIncreasing means strictly increasing',S),
(M+'Seq.lean','allAdjacent (fun x y => decide (x ≥ y)) xs','allAdjacent (fun x y => decide (x ≤ y)) xs','areNonIncreasing','>= becomes <=','C20: areNonIncreasing',S),
(M+'Seq.lean','{ value := !r.value, reason := some t }','{ value := r.value, reason := some t }','areDistinct','result not negated when a duplicate exists','C21: areDistinct',S),
(M+'Seq.lean','let tmp := stdSort xs\n','let tmp := xs\n','areDistinct','the copy is not sorted','C21: areDistinct finds non-adjacent duplicates',S),
(M+'Seq.lean','match tmp[v.toNat]? with','match xs[v.toNat]? with','areDistinct','the reason is taken from the unsorted range','C21: the reason occurs twice',S),
(M+'Chars.lean',"decide (c ≤ 'z')","decide (c < 'z')",'isLowerC',"'z' excluded",'C22: isLower on all characters',C),
(M+'Chars.lean',"if isUpperC c then Char.ofNat (c.toNat + 32) else c","if isLetterC c then Char.ofNat (c.toNat + 32) else c",'toLowerC','lower case letters are shifted too','C22: toLower leaves lower case letters',C),
(M+'Chars.lean',"['a', 'e', 'i', 'o', 'u']","['a', 'e', 'i', 'o', 'u', 'y']",'LOWER_VOWELS','y counts as a vowel','C22: vowels',C),
(M+'Chars.lean',"isLetterC c && !isVowelC c","!isVowelC c",'isConsonantC','letters not required','C22: consonants are letters',C),
(M+'Chars.lean',"if !p c then { value := false, reason := some c } else allChars p cs","if !p c then { value := false, reason := some c } else { value := true }",'allChars','only the first character is checked','C22: string versions check every character',C),
(M+'Chars.lean',"| _, _, i => { value := false, reason := some i }","| _, _, _ => { value := true }",'stringEqualLoop','a proper prefix counts as equal','C22: stringEqual compares lengths',C),
(M+'Chars.lean',"if defaultLower then toLowerC c else toUpperC c","if defaultLower then toUpperC c else toLowerC c",'toDefaultCaseC','default case swapped','C22: toDefaultCase',C),
(M+'Num.lean',"if n ≤ p ∨ n.tmod p = 0 then some (decide (n = p))","if n < p ∨ n.tmod p = 0 then some (decide (n = p))",'trialLoop','n <= p becomes n < p','C27 (equivalent program: n = p is caught by n % p == 0)',['Verif.Props.Prime']),
(M+'Num.lean',"(List.range n).map fun i => ((popcount64 ((i + lower) % 2 ^ 64) % 2 : Nat) : Int)","(List.range n).map fun i => ((popcount64 (i % 2 ^ 64) % 2 : Nat) : Int)",'thueMorseLoop','lower is ignored','C24: the sequence starts at index lower',N),
(M+'Num.lean',"(1 + ((n + 2 ^ 64 - 1) % 2 ^ 64) / a) % 2 ^ 64","(1 + n / a) % 2 ^ 64",'rangeSize','(n-1)/step becomes n/step','C23: upper bound is exclusive',N),
(M+'Num.lean',"if step < 0 then (2 ^ 64 - n) % 2 ^ 64 else n","n",'rangeDistance','distance not negated for negative steps','C23: descending ranges',N),
(M+'Num.lean',"if step < 0 ∧ frm ≤ to then return []","if step < 0 ∧ frm < to then return []",'range','from == to not treated as empty for negative steps','C23: empty range',N),
(M+'Num.lean',"if rhs % 2 = 1 then ((lhs + res) % 2 ^ 64) % mod else res","if rhs % 2 = 1 then (lhs + res) % 2 ^ 64 else res",'mulModLoop','sum not reduced','C25: mulMod without __int128',N),
(M+'Num.lean',"if mod ≤ 0x100000000 then","if mod ≤ 0x200000000 then",'powModLoop','bound for the 64-bit path doubled','C25: powMod for moduli above 2^32',N),
(M+'Num.lean',"if x < 0 then x + mod else x","if x ≤ 0 then x + mod else x",'applyMod','0 is mapped to mod','C25: applyMod result below mod',N),
(M+'Num.lean',"if g ≠ 1 then .ok (-1) else .ok (applyMod x mod)","if g ≠ 1 then .ok (-1) else .ok x",'multInv','result not normalised','C26: inverse in [0, mod)',N),
(M+'Num.lean',"if g ≠ 1 then .ok (-1) else","if g = 0 then .ok (-1) else",'multInv','no check for gcd 1','C26: -1 if there is no inverse',N),
(M+'Num.lean',"let x ← chk (y1 - p)","let x ← chk (y1 + p)",'extendedEuclid','sign error','C26: Bezout coefficients',N),
]
