M='Model/'
P=['Verif.Props.Primes']; R=['Verif.Props.RandInt']; SH=['Verif.Props.Shuffle']; D=['Verif.Props.Distinct']; Q=['Verif.Props.RandSeq']; B=['Verif.Props.Bracket']; PC=['Verif.Props.PermCycles']; PF=['Verif.Props.PermFix']; G=['Verif.Props.RandGeo']; GE=['Verif.Props.Geo']
MUTS=[
(M+'Num.lean','if a % un = 0 then mrLoop i128 un d j as','if a % un = 0 then false','mrLoop','a witness divisible by n rejects n','C27: every prime is accepted',['Verif.Props.Prime']),
(M+'Num.lean','(j - 1) v ≠ un - 1 then false','j v ≠ un - 1 then false','mrLoop','one squaring too many','C27: set of accepted numbers',['Verif.Props.Prime']),
(M+'Num.lean',' 89, 97, 101,',' 89, 97, 100,','TRIAL_PRIMES','101 replaced by 100','C27: exact below 137^2',['Verif.Props.Prime']),
(M+'Primes.lean','if l < lower then (if','if l ≤ lower then (if','lowestMultiple','lowest <= lower skips a composite at lower','C28: no composite is returned',P),
(M+'Primes.lean','markLoop (2 * i) count 0 (i * i) notPrime','markLoop (2 * i) count 0 i notPrime','sieveLoop','sieve marks i itself','C28 (equivalent result: entry i is not looked at again)',P),
(M+'Primes.lean','(max (i * i) lowest) segment','lowest segment','sieveLoop','marking starts at lowest, possibly at the prime i itself','C28: all primes are returned',P),
(M+'Primes.lean','if lower ≤ 2 ∧ 2 < upper then','if lower < 2 ∧ 2 < upper then','primesClamped','2 omitted when lower is clamped to 2','C28: 2 is returned',P),
(M+'Primes.lean','decide (i < count * count) || isPrime i128 i','true','collectLoop','no primality test beyond count^2','C28: narrow windows of large numbers',P),
(M+'Rand.lean','((2 ^ 64 - s) % 2 ^ 64) % s','((2 ^ 64 - s) % 2 ^ 64) % s + 1','rejectThreshold','one word too many is rejected','C02: integer is exactly uniform',R),
(M+'Rand.lean','let mid := ((p10 + p00 / 2 ^ 32) % 2 ^ 64 + p01 % 2 ^ 32) % 2 ^ 64','let mid := (p10 + p01 % 2 ^ 32) % 2 ^ 64','mulHigh32','carry of the low product dropped','C02: both code paths agree',R),
(M+'Rand.lean','if x * s % 2 ^ 64 < s then rejectLoop','if x * s % 2 ^ 64 < 0 then rejectLoop','acceptWord','no rejection at all','C02: no modulo bias',R),
(M+'RandSeq.lean','let j ← integer 0 ((i : Int) + 2)','let j ← integer 0 ((i : Int) + 1)','shuffleLoop','j < i instead of j <= i (Sattolo)','C03: shuffle is uniform',SH),
(M+'RandSeq.lean','def shuffle {α : Type} (l : List α) : Rand (List α) := shuffleLoop (l.length - 1) l','def shuffle {α : Type} (l : List α) : Rand (List α) := shuffleLoop (l.length - 2) l','shuffle','last element never moves','C03: shuffle is uniform',SH),
(M+'RandSeq.lean','let moved := (used last).getD last','let moved := last','distinctLoop','moved value not looked up','C04: selected values are different',D),
(M+'RandSeq.lean','lift (judgeAssert (decide (s ≤ upper)))\n  distinctLoop','distinctLoop','distinct','check of the range dropped','C04: too many values throw',D),
(M+'RandSeq.lean','pure (l.drop r.toNat ++ l.take r.toNat, r)','pure (l.drop r.toNat ++ l.take r.toNat, r + 1)','rotate','wrong rotation returned','C15: rotate',Q),
(M+'RandSeq.lean','pure (if b then p.1 else p.2)','pure p.1','selectPair','always the first component','C15: select is uniform',Q),
(M+'RandSeq.lean','let res ← increasing (k - 1) 1 n\'','let res ← increasing (k - 1) 0 n\'','partition','cut position 0 allowed','C08: parts are at least min',Q),
(M+'RandSeq.lean','let v ← chk (d + (min - 1))','let v ← chk (d + min)','partitionLoop','parts too large by one','C08: parts sum up to n',Q),
(M+'RandSeq.lean','(is.takeWhile fun x => decide (x ≤ v)).length','(is.takeWhile fun x => decide (x < v)).length','upperBound','lower_bound instead of upper_bound','C11: discrete has the given weights',Q),
(M+'RandSeq.lean','maximumLoop lower upper n (max res x)','maximumLoop lower upper n (min res x)','maximumLoop','min instead of max','C16: maximum',Q),
(M+'RandSeq.lean','lift (chk (u1 - m))','lift (chk (upper - m))','minimum','off by one','C16: minimum in [lower, upper)',Q),
(M+'RandSeq.lean','let res := max 2 (2 * x + 1)','let res := 2 * x + 1','primeLoop','2 cannot be produced','C13: primes of the range are equally likely',Q),
(M+'RandSeq.lean','let sampleL := if lower ≤ 2 then 0 else lower.tdiv 2','let sampleL := if lower ≤ 2 then 0 else lower.tdiv 2 + 1','randomPrime','smallest odd candidate skipped','C13: primes of the range are equally likely',Q),
(M+'RandSeq.lean','let good ← lift (chk ((n - opened) * (diff + 2)))','let good ← lift (chk ((n - opened) * (diff + 1)))','bracketLoop','wrong weight of the opening bracket','C09: bracket sequences are uniform',B),
(M+'RandSeq.lean','if x < good then do','if x ≤ good then do','bracketLoop','<= instead of <','C09: result is balanced',B),
(M+'RandSeq.lean','let res2 ← assignCycle p offset (tmp + c - 1) tmp res1','let res2 ← assignCycle p offset (tmp + c - 1) (tmp + c - 1) res1','cycleOuter','last element of a cycle mapped to itself','C06: cycle lengths',PC),
(M+'RandSeq.lean','cycleOuter p offset cs (tmp + c) res2','cycleOuter p offset cs (tmp + 1) res2','cycleOuter','cycles overlap','C06: cycle lengths',PC),
(M+'RandSeq.lean','let tmp ← shuffle tmp\n  lift (fillLoop','lift (fillLoop','permFix','remaining values not shuffled','C07: uniform',PF),
(M+'RandSeq.lean','decide (offset ≤ x ∧ x < e)','decide (offset ≤ x ∧ x ≤ e)','fixLoop','upper bound of fixpoints not exclusive','C07: fixpoints outside throw',PF),
(M+'RandGeo.lean','if a = 0 ∧ b = 0 then rotLoop p n else','if a = 0 ∨ b = 0 then rotLoop p n else','rotLoop','a zero component is redrawn too','C14 (equivalent for the claim: still general position)',G),
(M+'RandGeo.lean','let a ← integer 1 p\n','let a ← integer 0 p\n','ncDraw','leading coefficient may be 0','C14: no three points collinear',G),
(M+'RandGeo.lean','let v ← chk (v1 + v2)','let v ← chk (v1 - v2)','ncPoint','not a rotation','C14: no three points collinear',G),
(M+'RandGeo.lean','integer (-dim + 1) (dim - p)\n  let dy','integer (-dim) (dim - p)\n  let dy','ncDraw','offset -dim allowed','C14: coordinates in (-dim, dim)',G),
(M+'RandGeo.lean','r > 2 ^ 10 ∨ (r = 2 ^ 10 ∧ q % 2 = 1)','false','toDouble','rounding towards zero','C12 (repaired program: 1 is never returned)',G),
(M+'Geo.lean','if c1 < 0 then return false\n','','isConvexLoop','fan test dropped','C29: winding polygons',GE),
(M+'Geo.lean','if c2 = 0 then return false\n','','noStraightLoop','straight angles allowed','C29: strictly convex',GE),
(M+'Geo.lean','if a = b then return false\n','','isConvexLoop','repeated vertices allowed','C29: neighbours different',GE),
(M+'Geo.lean','let ay ← chk (a.2 - p.2)','let ay ← chk (a.2 - p.1)','crossP','wrong coordinate','C29',GE),
(M+'Geo.lean','return decide (area > 0)','return decide (area ≥ 0)','isCCW','zero area accepted','C30: zero area is not counter-clockwise',GE),
(M+'Geo.lean','let c ← crossO last p\n','let c := 0\n','isCCW','closing edge forgotten','C30: area',GE),
(M+'Geo.lean','decide (a ≤ 0x3FFFFFFF)','decide (a ≤ 0x7FFFFFFF)','assertAbs','bound doubled','C29: no overflow',GE),
]
