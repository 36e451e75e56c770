M='Model/'
W=M+'WordFn.lean'; R=M+'RealRange.lean'; G=M+'RandGeo.lean'; N=M+'Rand.lean'
GW=['Verif.Props.GrowingWords']; WF=['Verif.Props.WordFn','Verif.Props.GrowingWords']; RU=['Verif.Props.RealUniform']
MUTS=[
# words used twice, words thrown away
(W,"  | some (a, rest) => g a rest","  | some (a, _) => g a ws",'WordFn.andThen','the second call gets the same words again','C75_words: the numbers and choices of neighbours are independent',WF),
(W,"  | some (a, rest) => g a rest","  | some (a, rest) => g a rest.tail",'WordFn.andThen','one word is lost between two calls','none for the laws (any words will do); but the result is missing if no word is left, so a call is no longer sequential',WF),
(G,"    else some (trailingZeros x, ws)","    else some (trailingZeros x, x :: ws)",'exponentLoop','the word of the exponent is not taken, the next call sees it','C113_real: real() takes its words',WF),
(G,"  | w :: ws => (exponentLoop ws).map","  | w :: ws => (exponentLoop (w :: ws)).map",'realWords','mantissa and exponent from the same word','C112, C98_real: the law of real()',RU),
(N,"    | some (.ok v, ws) => run i128 (k v) ws\n","    | some (.ok v, rest) => run i128 (k v) (rest.drop 0)\n",'Rand.run','no change (drop 0)','none (equivalent); proof scripts may break',WF),
# degrees
(W,"(.fin (i + 1))) fun x ws","(.fin i)) fun x ws",'degreeCall','real(0, i) instead of real(0, i+1)','C75_degree_words: the law of the number of neighbours; vertex 0 throws',GW),
(W,"| .fin q => chk (if q < 0 then -⌊-q⌋ else ⌊q⌋)","| .fin q => chk ⌈q⌉",'toInteger','conversion rounds up','C75_degree_words: a vertex would have all i+1 neighbours',GW),
(W,"some (toInteger (mul F p x), ws)","some (toInteger (mul F x x), ws)",'degreeCall','x*x instead of p*x','C75_degree_words',GW),
(W,"WordFn.bindOut ((growStep i deg res).run i128)","WordFn.bindOut ((growStep i (deg - 1) res).run i128)",'growCallLoop','one neighbour too few','C75_words',GW),
(W,"growCallLoop i128 F p n fuel (i + 1) res\n","growCallLoop i128 F p n fuel (i + 2) res\n",'growCallLoop','every other vertex gets no smaller neighbours','C75_words',GW),
(W,"growCallLoop i128 F p n n.toNat 0 res ws","growCallLoop i128 F p n (n.toNat - 1) 0 res ws",'growCall','the last vertex gets no neighbours','C75_words',GW),
(W,"if Fp.le (.fin 0) p && Fp.le p (.fin 1) then","if Fp.le (.fin 0) p then",'growCall','p above 1 accepted','C75_words_assertion',GW),
(W,"if Fp.le (.fin 0) p && Fp.le p (.fin 1) then","if !(Fp.lt p (.fin 0)) && !(Fp.lt (.fin 1) p) then",'growCall','the comparison negated: not-a-number accepted','C75_words_assertion: rejected if not a number',GW),
(W,"realRange F (ws.length + 1) lower upper ws","realRange F 1 lower upper ws",'realRangeCall','only one iteration followed','C113_range: the result of the loop for any fuel',WF),
(W,"realUpper F (ws.length + 1) upper ws","realUpper F ws.length upper ws",'realUpperCall','no fuel for no words','C113_upper: no outcome before words are there',WF),
# scaling
(R,"let res := mul F (.fin x) upper","let res := mul F (mul F (.fin x) (.fin x)) upper",'realUpperLoop','x*x*upper, in range but not uniform','C112_upper',RU),
(R,"(mul F lower (sub F (.fin 1) (.fin x)))","(mul F lower (.fin x))",'realRangeLoop','lower*x + upper*x','C112_range, C84_range',RU),
(R,"if le lower res && lt res upper then","if le lower res && lt res upper && lt (add F lower (.fin 1)) res then",'realRangeLoop','values within 1 of the lower bound rejected','C112_range: uniform',RU),
(R,"if le (.fin 0) res && lt res upper then some (.ok res, ws) else","if le (.fin 0) res && lt res upper then some (.ok res, ws) else if lt (.fin 0) res then some (.ok (.fin 0), ws) else",'realUpperLoop','0 instead of another iteration','none that C112 can see: rejections have the probability of the error of rounding; C84_upper: the result is the scaled value',RU+['Verif.Props.RealRange']),
]
