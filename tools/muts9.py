M='Model/'
BT=['Verif.Props.Btrs','Verif.Props.BinomialIn']; GR=['Verif.Props.GraphReal']; CR=['Verif.Props.ConstraintRead']; HE=['Verif.Props.Helpers']; CE=['Verif.Props.ConvexEnds']; AE=['Verif.Props.AesEquidist']
MUTS=[
# rejection method of binomial
(M+'Ideal.lean','if us ≥ 0.07 ∧ v ≤ vr then return if swap then n - res else res','if us ≥ 0.07 ∧ v ≤ vr then return res','btrsLoop','no exchange of success and failure in the fast acceptance','C73: binomial has the binomial law for p > 1/2',BT),
(M+'Ideal.lean','if btrsLate n res p q spq a b us v then return if swap then n - res else res','if btrsLate n res p q spq a b us v then return res','btrsLoop','no exchange of success and failure in the last acceptance','C73: binomial has the binomial law for p > 1/2',BT),
(M+'Ideal.lean','if res < 0 ∨ res > n then btrsLoop','if res < 0 then btrsLoop','btrsLoop','results above n not rejected','C73: binomial is at most n',BT),
(M+'Ideal.lean','(2.83 + 5.1 / b)','(2.83 + 2.1 / b)','btrsLate','other constant in alpha','C73: the rejection method with the published constants',BT),
(M+'Ideal.lean','(res - m) * lpq','(m - res) * lpq','btrsLate','sign of the last summand','C73: binomial has the binomial law',BT),
(M+'Ideal.lean','h - lgamma (res + 1)','h - lgamma res','btrsLate','gamma function at the wrong place','C73: binomial has the binomial law',BT),
(M+'Ideal.lean','let u := x - 1 / 2','let u := x','btrsLoop','centre not subtracted','C73: binomial has the binomial law',BT),
(M+'Ideal.lean','let c := n * p + 0.5','let c := n * p','btrs','centre of the hat shifted','C73: the rejection method with the published constants',BT),
(M+'Ideal.lean','if lower ≤ res ∧ res < upper then return res\n    else binomialLoop','if lower ≤ res ∧ res ≤ upper then return res\n    else binomialLoop','binomialLoop','upper bound included','C73: bounded binomial is below upper',BT),
(M+'Ideal.lean','let res ← binomial fuel n p\n    if lower','let res ← binomial fuel n (1 - p)\n    if lower','binomialLoop','probability of failure','C73: bounded binomial is conditioned binomial(n, p)',BT),
(M+'Ideal.lean','noncomputable def binomialIn (fuel : ℕ) (lower upper n : Int) (p : ℝ) : Draw Int := do\n  require (lower < upper)','noncomputable def binomialIn (fuel : ℕ) (lower upper n : Int) (p : ℝ) : Draw Int := do\n  require (lower ≤ upper)','binomialIn','empty interval not refused','C73: bounded binomial throws for empty intervals',BT),
# growing graphs with real numbers
(M+'GraphReal.lean','lower * (1 - x) + upper * x','lower * x + upper * x','realInLoop','weights','C75: the number of smaller neighbours is uniform',GR),
(M+'GraphReal.lean','let j ← lift (chk (i + 1))','let j ← lift (chk i)','degree','range one too small','C75: the number of smaller neighbours is uniform on 0..i',GR),
(M+'GraphReal.lean','lift (truncated (p * x))','lift (truncated x)','degree','factor p forgotten','C75: p scales the number of smaller neighbours',GR),
(M+'GraphReal.lean','judgeAssert (decide (0 ≤ p ∧ p ≤ 1))','judgeAssert (decide (0 ≤ p))','randomGrowingGraph','p > 1 not refused','C75: p outside of [0, 1] throws',GR),
# reading with constraints
(M+'ConstraintRead.lean','| .integer l u => .integerBounded l u','| .integer _ _ => .integer','BTok.tok','bounds not checked when a constraint is given','C94: a constraint does not change the verdict',CR),
(M+'ConstraintRead.lean','| .integer l u, .int v => some (.int l u v)','| .integer l u, .int _ => some (.int l u l)','BTok.entry','lower bound logged in place of the value','C94: the file describes the values that were read',CR),
(M+'ConstraintRead.lean','| .string l u, .str t => some (.container 0 l u t.length)','| .string l u, .str t => some (.container 0 l u (t.length + 1))','BTok.entry','length off by one','C94: the file describes the values that were read',CR),
(M+'ConstraintRead.lean','| .real l u, .real x => some (.real l u x)','| .real l u, .real x => some (.real u l x)','BTok.entry','bounds exchanged','C94: the bounds of the call are logged',CR),
(M+'ConstraintRead.lean','| n + 2, s => (one s).bind fun x => (LogM.lift (sep x.2)).bind fun s =>','| n + 2, s => (LogM.lift (sep s)).bind fun s => (one s).bind fun x => let s := x.2;','LogM.manyLoop','separator before the element','C94: a constraint does not change the input that is read',CR),
(M+'ConstraintRead.lean','| (.error (.exit _), l) => some (l.lines o)','| (.error (.exit _), _) => none','constraintsFile','nothing written after a verdict','C94: the file is written however the validator ends',CR),
(M+'ConstraintRead.lean','| .mention n k, s => (LogM.log o ⟨n, none⟩).bind fun _ => k.run cfg ops o s','| .mention _ k, s => k.run cfg ops o s','LProg.run','names without values are not registered','C94: names are listed in the order of their first use',CR),
(M+'ConstraintRead.lean','| (.error e, l) => (.error e, l)','| (.error e, _) => (.error e, {})','LogM.bind','log of a failed computation lost','C94: what was read before a failure is logged',CR),
# helpers for containers
(M+'Helpers.lean','  if a1 ≠ a2 then\n','  if true then\n','append','no test for the same object','C95: append of a vector to itself',HE),
(M+'Helpers.lean','some ((l.take j).drop i)), next := m.next + 1 }','some []), next := m.next + 1 }','append','empty copy','C95: append of a vector to itself',HE),
(M+'Helpers.lean','if rvalue then\n','if !rvalue then\n','asFunction','capture exchanged','C95: asFunction keeps the elements of an rvalue',HE),
(M+'Helpers.lean','def longer (a b : List α) : Bool := decide (b.length < a.length)','def longer (a b : List α) : Bool := decide (b.length ≤ a.length)','longer','not a strict ordering','C95: longer can be used for sorting',HE),
(M+'Helpers.lean','| 0, (c : α), res => res ++ [c]','| 0, (c : α), res => c :: res','flatAppend','elements in front','C95: flatten keeps the order',HE),
(M+'Helpers.lean','(a b : α) : Bool := less b a','(a b : α) : Bool := !less a b','invertCompare','negation in place of the inverse','C95: MinPQ has a strict weak ordering',HE),
# folding of AES_RNG, found by an automatic edit before C96 existed
(M+'Aes.lean','(b.get p).setWidth 64 <<< (8 * (p.1 % 8))','(b.get p).setWidth 64 >>> (8 * (p.1 % 8))','fold','shift to the wrong side','C96: all words are equally frequent',AE),
(M+'Aes.lean','(8 * (p.1 % 8))','(8 * (p.1 % 4))','fold','half of the word','C96: all words are equally frequent',AE),
# convex
(M+'Convex.lean','let x\' ← partition (2 * dim - 2) (n - left) 0','let x\' ← partition (2 * dim - 2) (n - down) 0','convexDraw','wrong number of parts','C71: n points',CE),
(M+'Convex.lean','> n then pure none','≥ n then pure none','convexDirs','too many rejections','C71: the loop ends for every allowed n',CE),
]
