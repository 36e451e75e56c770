M='Model/'
SO=['Verif.Props.Sources']; SH=['Verif.Props.InputShape']; RE=['Verif.Props.RealEnds']
S=M+'Sources.lean'; T=M+'Stream.lean'; I=M+'Init.lean'; R=M+'RealRange.lean'; N=M+'Num.lean'; PR=['Verif.Lemmas.PrimeBelow','Verif.Props.Prime']
MUTS=[
# several streams
(S,"if j = i then rest else s j","rest",'MProg.run','reading one stream moves all streams (one shared position)','C111_ok: a run consists of calls that move their own stream only',SO),
(S,"c.run (cfg i) (ops i) (s i)\n    (k v).run cfg ops fun j => if j = i then rest else s j","c.run (cfg i) (ops i) (s i)\n    (k v).run cfg ops s",'MProg.run','values are read again and again','C111_ok',SO),
(S,"onFail := a.onFail","onFail := 1",'StreamArgs.cfg','all streams fail with the verdict for the jury','C111_output: the verdict 43 for the team',SO),
(T,"  else .error .throw\n","  else .ok fun s => .ok s\n",'checkSeparator','other separators are ignored','C111_call: a wrong separator throws for all texts',SO),
(T,"if count < 0 then .error .throw","if count < 0 then .error .ub",'many','negative numbers of elements are undefined behaviour','C111_call: exception for negative counts',SO),
(T,"if count < 0 then .error .throw","if count < 1 then .error .throw",'many','zero elements throw','C111_call: zero elements are no misuse',SO),
(T,"  judgeAssert (isToken expected)\n  let (seen, rest) ← string cfg s","  let (seen, rest) ← string cfg s\n  judgeAssert (isToken expected)",'expectString','the expected string is checked after reading, so the text decides between exception and verdict','C111_call: misuse does not depend on the text',SO),
(T,"  judgeAssert (isToken expected)\n","",'expectString','expected string not checked','C111_call: misuse throws',SO),
(T,"  | some v => .ok (v, rest)\n  | none => fail cfg","  | some v => .ok (v, rest)\n  | none => .error .throw",'parseToken','numbers outside the range of Integer throw (std::stoll)','C111_call: texts never cause exceptions',SO),
(T,"def getExpect (c : Char) : List Char → Out (List Char)\n  | [] => fail cfg","def getExpect (c : Char) : List Char → Out (List Char)\n  | [] => .error .ub",'getExpect','reading behind the end is undefined (noteof saves it)','none: noteof comes first; C111_call is proved from the parts and fails with the lemma about getExpect',SO),
(I,"  let juryAns ← fileStream eps g 2\n  let f","  let juryAns := stdinStream eps g\n  let f",'outputInit','the answer of the jury is read from standard input','C111_output: a wrong answer of the jury is not blamed on the team',SO),
# the shape of accepted inputs
(T,"if ops.close seen expected then fail cfg","if !ops.close seen expected then fail cfg",'expectReal','the test as intended','C32_accepts: expectReal as coded (C35_real_refuted)',SH),
(T,"if seen ≠ expected then fail cfg","if seen < expected then fail cfg",'expectInt','larger numbers accepted','C32_accepts',SH),
(T,"if cfg.spaceSensitive && badStart s then fail cfg","if badStart s then fail cfg",'string','control characters rejected on all streams','none on strict streams: C32 quantifies over strict streams; C34 is about the others',SH+['Verif.Props.Input']),
(T,"if (t.length : Int) < lower ∨","if (t.length : Int) ≤ lower ∨",'stringBounded','lower bound of the length exclusive','C32_accepts',SH),
# the end of real(lower, upper)
(R,"if le (.fin 0) res && lt res upper then some (.ok res, ws) else","if lt (.fin 0) res && lt res upper && lt (.fin (1 / 2)) res then some (.ok res, ws) else",'realUpperLoop','small values rejected: small bounds never end','C84_upper_almost_surely',RE),
(R,"if le lower res && lt res upper then","if lt lower res && lt res upper then",'realRangeLoop','the lower bound itself rejected: neighbouring bounds never end','C84_range_almost_surely',RE),
(R,"(mul F upper (.fin x))","(mul F upper (.fin 1))",'realRangeLoop','upper not scaled','C84_range',RE),
# isPrime
(N,"mrSquare i128 un (j - 1) v ≠ un - 1","mrSquare i128 un (j - 2) v ≠ un - 1",'mrLoop','one squaring too few','C27: no prime is rejected',PR),
(N,"if v = 1 ∨ v = un - 1 then mrLoop","if v = un - 1 then mrLoop",'mrLoop','a power of one is no longer accepted','C27: no prime is rejected',PR),
(N,"else if mrSquare i128 un (j - 1) v ≠ un - 1 then false","else if mrSquare i128 un (j - 1) v ≠ 1 then false",'mrLoop','Fermat instead of Miller-Rabin','C27',PR),
(N,"if n ≤ p ∨ n.tmod p = 0 then some (decide (n = p))","if n < p ∨ n.tmod p = 0 then some (decide (n = p))",'trialLoop','n = p is found by the remainder instead','none (equivalent)',PR),
(N,"if n ≤ p ∨ n.tmod p = 0 then some (decide (n = p))","if n ≤ p ∨ n.tmod p = 0 then some (decide (n ≤ p))",'trialLoop','numbers below 2 and between the trial primes are accepted','C27_exact_below_partial',PR),
(N,"if a % un = 0 then mrLoop","if a % un = 0 then false && mrLoop",'mrLoop','bases divisible by n reject','C27: no prime is rejected',PR),
]
