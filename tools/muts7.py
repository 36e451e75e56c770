M='Model/'
I1=['Verif.Props.Ideal']; I2=['Verif.Props.Ideal2']; I12=I1+I2; RP=['Verif.Props.RandomGraphP']; GR=['Verif.Props.Growing']
FL=['Verif.Props.Flow','Verif.Props.Flow2']; FP=['Verif.Props.Float']; IO=['Verif.Props.GraphIO']; ST=['Verif.Props.SvgText']
RT=['Verif.Props.RealText']; FM=['Verif.Props.FailMessage']
MUTS=[
# continuous distributions
(M+'Ideal.lean','  let res := √(-2 * Real.log u1) * Real.cos (2 * Real.pi * u2)\n  return √stddev * res + mean','  let res := √(-2 * Real.log u1) * Real.cos (Real.pi * u2)\n  return √stddev * res + mean','Ideal.normal','half of the circle','none or C72: the law of the cosine is the same on half of the circle',I1),
(M+'Ideal.lean','  let res := √(-2 * Real.log u1) * Real.cos (2 * Real.pi * u2)\n  return √stddev * res + mean','  let res := √(-Real.log u1) * Real.cos (2 * Real.pi * u2)\n  return √stddev * res + mean','Ideal.normal','factor two missing','C72: the variance of normal',I1),
(M+'Ideal.lean','  return √stddev * res + mean\n\n','  return stddev * res + mean\n\n','Ideal.normal','third argument used as the standard deviation','C72: the third argument is the variance',I1),
(M+'Ideal.lean','    if lower ≤ res ∧ res < upper then return res\n    else\n','    if lower ≤ res ∧ res ≤ upper then return res\n    else\n','Ideal.normalLoop','upper bound may be attained','C72: bounded normal is below its upper bound',I1),
(M+'Ideal.lean','  return -Real.log u / lambda','  return -Real.log u * lambda','Ideal.exponential','rate used as mean','C72: the law of exponential',I1),
(M+'Ideal.lean','    let res := lower - Real.log u / lambda','    let res := -Real.log u / lambda','Ideal.exponentialLoop','lower bound not added','C72: bounded exponential',I1),
(M+'Ideal.lean','  require (0 ≤ p ∧ p < 1)\n  let u ← real\n  lift (gap u (Real.log (1 - p)))','  require (0 ≤ p ∧ p < 1)\n  let u ← real\n  lift (gap u (Real.log p))','Ideal.geometric','probability of failure instead of success','C73: the law of geometric',I2),
(M+'Ideal.lean','    if res < upper then return res\n    else geometricLoop','    if res ≤ upper then return res\n    else geometricLoop','Ideal.geometricLoop','upper bound may be attained','C73: bounded geometric is below its upper bound',I2),
(M+'Ideal.lean','    let g ← lift (chk (g + 1))\n','','Ideal.bgLoop','gaps one too short','C73: the law of binomial',I2),
(M+'Ideal.lean','    if y > n then return if swap','    if y ≥ n then return if swap','Ideal.bgLoop','the last trial is never counted','C73: the law of binomial',I2),
(M+'Ideal.lean','if y > n then return if swap then n - res else res','if y > n then return res','Ideal.bgLoop','not swapped back for p above one half','C73: the law of binomial',I2),
(M+'Ideal.lean','    if res < 0 ∨ res > n then btrsLoop','    if res > n then btrsLoop','Ideal.btrsLoop','negative results are not rejected','C73: binomial is between 0 and n',I2),
(M+'Ideal.lean','if Real.log (1 - p) ≥ 0 then return if swap then n else 0','if Real.log (1 - p) ≥ 0 then return 0','Ideal.binomial','p = 1 gives 0','C73: the law of binomial',I2),
# random graphs with probabilities
(M+'RandomGraphP.lean','  let m ← binomial (l.tdiv 2)','  let m ← binomial l','randomGraphP','number of ordered pairs','C74: undirected random graphs',RP),
(M+'RandomGraphP.lean','  let k ← binomial l\n','  let k ← binomial (l.tdiv 2)\n','randomBipartiteP','half of the pairs','C74: random bipartite graphs',RP),
(M+'RandomGraphP.lean','fun j => (i, j)','fun j => (j, i)','growLoop','edges in the other direction','C75: randomGrowingGraph',GR),
(M+'RandomGraphP.lean','let neighbours ← distinct deg 0 i','let neighbours ← distinct deg 0 (i + 1)','growLoop','the vertex itself may be chosen','C75: randomGrowingGraph',GR),
(M+'RandomGraphP.lean','  growLoop degree n n.toNat 0 res','  growLoop degree n n.toNat 1 res','randomGrowingGraph','starts at vertex 1','none: vertex 0 has no earlier vertex',GR),
# flow networks
(M+'Flow.lean','let c ← chk (c * 2)','let c ← chk (c + 1)','ffLoop','capacities grow linearly','C76: ffWorstcase',FL),
(M+'Flow.lean','      let res ← res.add (i + 1) j c\n','      let res ← res.add j (i + 1) c\n','ffLoop','one edge reversed','C76: ffWorstcase',FL),
(M+'Flow.lean','decide (0 < n ∧ n ≤ 63)','decide (0 < n ∧ n ≤ 64)','ffWorstcase','limit one too large','C76: ffWorstcase',FL),
(M+'Flow.lean','      let res ← res.add (i + 1) (j + 1 + n) (inf, w - 1)','      let res ← res.add (i + 1) (j + 1 + n) (inf, w)','middleInner','costs without minus one','C76: mcmfWorstcase',FL),
(M+'Flow.lean','  let inf := s.tdiv 4','  let inf := s.tdiv 8','mcmfWorstcase','inner capacities too small','C76: mcmfWorstcase',FL),
(M+'Flow.lean','def demand (i : Int) : Out Int := if i < 2 then .ok 2','def demand (i : Int) : Out Int := if i < 2 then .ok 1','demand','smaller demand','C76: mcmfWorstcase',FL),
# floatEqual
(M+'Float.lean','.ok (le absDiff floatAbsTol || le relDiff floatRelTol)','.ok (le absDiff floatAbsTol && le relDiff floatRelTol)','floatEqual','both tolerances required','C77: floatEqual',FP),
(M+'Float.lean','let relDiff := abs (div F (sub F given expected) expected)','let relDiff := abs (div F (sub F given expected) given)','floatEqual','relative to the given number','C77: floatEqual',FP),
(M+'Float.lean','let relDiff := abs (div F (sub F given expected) expected)','let relDiff := div F (sub F given expected) expected','floatEqual','no absolute value','C77: floatEqual',FP),
(M+'Float.lean','.ok (signbit given == signbit expected)','.ok true','floatEqual','infinities of both signs are equal','C77: floatEqual',FP),
(M+'Float.lean','  else if isnan given && isnan expected then .ok true','  else if isnan given || isnan expected then .ok true','floatEqual','NaN equals everything','C77: floatEqual',FP),
(M+'Float.lean','if le given expected then .ok true else','if le expected given then .ok true else','floatLess','wrong direction','C77: floatLess',FP),
(M+'Float.lean','  if Int.fract x < 1 / 2 then ⌊x⌋\n','  if Int.fract x ≤ 1 / 2 then ⌊x⌋\n','rne','ties down','none or C77/C80: still nearest; C81: ties',FP+RT),
(M+'Float.lean','def expo (F : Format) (a : ℚ) : ℤ := max F.emin (Int.log 2 a - F.p + 1)','def expo (F : Format) (a : ℚ) : ℤ := max F.emin (Int.log 2 a - F.p + 2)','expo','one bit of precision lost','C80: the nearest number is read',FP+RT),
# graphs as text
(M+'GraphIO.lean','write (.int e.src) ++ write (.text [\' \']) ++ write (.int e.dst)','write (.int e.dst) ++ write (.text [\' \']) ++ write (.int e.src)','writeEdge','ends exchanged','C78: the text lists the edges',IO),
(M+'GraphIO.lean','write (.text [\'\\n\']) ++ writeEdge','writeEdge','writeGraph','no line breaks','C78: the text can be read back',IO),
(M+'GraphIO.lean','write (.int g.nodeCount) ++ write (.text [\' \']) ++ write (.int g.edgeCount)','write (.int g.edgeCount) ++ write (.text [\' \']) ++ write (.int g.nodeCount)','writeGraph','numbers exchanged','C78: the text starts with the numbers of vertices and edges',IO),
(M+'GraphIO.lean','    let (b, s) ← Stream.integerBounded cfg 1 (n + 1) s','    let (b, s) ← Stream.integerBounded cfg 1 n s','readEdges','vertex n is rejected','C78: the validator accepts exactly trees',IO),
(M+'GraphIO.lean','  else if !g.isConnected then verdict WA\n','','judge','connectivity not checked','none: isTree checks it',IO),
(M+'GraphIO.lean','  else if !g.isTree then verdict WA\n','','judge','tree not checked','C78: the validator accepts exactly trees',IO),
(M+'GraphIO.lean','  let _ ← Stream.eof cfg s\n','','main','end of file not checked','C78: the validator accepts exactly trees',IO),
# SVG text
(M+'SvgText.lean','def attr (key value : List Char) : List Char := key ++ "=\\"".toList ++ value ++ "\\" ".toList','def attr (key value : List Char) : List Char := key ++ "=\\"".toList ++ value ++ "\\"".toList','attr','no space between attributes','C79: well-formed XML',ST),
(M+'SvgText.lean','| p :: ps => num p.x ++ ",".toList ++ num (flipY p.y)','| p :: ps => num p.x ++ ",".toList ++ num p.y','printPoints','the vertical axis is not flipped','C79: exactly the drawn shapes',ST),
(M+'SvgText.lean','attr "y".toList (num (flipY o.y d.height))','attr "y".toList (num (flipY o.y))','Shape.print','the height of a rectangle is ignored','C79: exactly the drawn shapes',ST),
(M+'SvgText.lean','attr "rx".toList (num rx) ++ attr "ry".toList (num ry)','attr "rx".toList (num ry) ++ attr "ry".toList (num rx)','Shape.print','radii exchanged','C79: exactly the drawn shapes',ST),
(M+'SvgText.lean','    | none => attr "fill".toList "none".toList)','    | none => [])','Style.print','fill of shapes without fill not written','C79: exactly the drawn shapes',ST),
(M+'SvgText.lean','    out ++ "</svg>".toList)','    out ++ "<svg>".toList)','file','end tag','C79: well-formed XML',ST),
(M+'SvgText.lean','  if out.isEmpty then none\n  else some','  some','file','a file without shapes is written','C79: no file without content',ST) if False else
(M+'SvgText.lean','  | .comment c => "<!-- ".toList ++ c ++ " -->".toList','  | .comment c => "<!-- ".toList ++ c ++ " ->".toList','Item.print','comment not closed','C79: well-formed XML',ST),
(M+'SvgText.lean','toString (flipY box.origin.y box.dimension.height)','toString (flipY box.origin.y)','file','view box not flipped','C79: the view box is the bounding box',ST),
(M+'SvgText.lean','if !s.scale then attr','if s.scale then attr','Stroke.print','scaling reversed','C79: exactly the drawn shapes',ST),
# reals as text
(M+'RealText.lean','10 ^ (e.1 - f.1.length)','10 ^ (e.1)','fromChars','the point is ignored','C80: the number read is the nearest one',RT),
(M+'RealText.lean','if s.head? = some \'-\' then -(digitsValue 0 ds : Int) else digitsValue 0 ds','(digitsValue 0 ds : Int)','takeExponent','sign of the exponent ignored','C80: the number read is the nearest one',RT),
(M+'RealText.lean','round F (if (stripMinus s).1 then -q else q)','round F q','fromChars','sign ignored','C80: the number read is the nearest one',RT),
(M+'RealText.lean','if x = 0 ∧ q ≠ 0 then none else','','fromChars','numbers that are too small are read as zero','C80: exactly the numbers in range are accepted',RT),
(M+'RealText.lean','  | some (v, []) => some v\n','  | some (v, _) => some v\n','parseReal','rest of the text is ignored','none or C80: the pattern excludes a rest',RT),
(M+'RealText.lean','  if !REAL_REGEX.matches s then { value := false }\n  else','','isReal','pattern is not checked','C80: only the documented notation',RT),
(M+'RealText.lean',"'.' :: padLeft prec (Nat.toDigits 10 (n % 10 ^ prec))","'.' :: Nat.toDigits 10 (n % 10 ^ prec)",'printFixed','zeros after the point are lost','C81: the text written',RT),
(M+'RealText.lean','def DEFAULT_PRECISION : ℕ := 6','def DEFAULT_PRECISION : ℕ := 5','DEFAULT_PRECISION','five decimals','C81: round trip within the tolerance',RT),
(M+'RealText.lean','  let n := (rne (a * 10 ^ prec)).toNat','  let n := (⌊a * 10 ^ prec⌋).toNat','printFixed','truncated','C81: the nearest number is written',RT),
(M+'RealText.lean','if m = 10 ^ 6 then (10 ^ 5, Int.log 10 a + 1) else (m, Int.log 10 a)','(m, Int.log 10 a)','significant','carry into a new digit ignored','C82: numbers in SVG files',RT),
(M+'RealText.lean','if -4 ≤ x ∧ x < 6 then','if -4 ≤ x ∧ x < 7 then','printGeneral','seven digits without exponent','C82: numbers in SVG files',RT),
(M+'RealText.lean',"if x < 0 then '-' else '+'","if x < 0 then '+' else '-'",'printGeneral','sign of the exponent','C82: numbers in SVG files',RT),
# position of a failure
(M+'FailMessage.lean','search fuel (todo - 1) { st with line := st.line + 1,','search fuel (todo - 1) { st with line := st.line,','search','lines are not counted','C83: the line number',FM),
(M+'FailMessage.lean','{ st with line := st.line + 1, l := l, r := l, buffer := [], rest := rest }','{ st with line := st.line + 1, l := l, r := l, buffer := st.buffer, rest := rest }','search','the buffer keeps the previous line','C83: the line shown and the column',FM),
(M+'FailMessage.lean','let offset := min (l - 20) (r - 60)','let offset := r - 60','cutLeft','the marked position may be cut off','C83: the mark is inside of the line shown',FM),
(M+'FailMessage.lean','if r > 60 ∧ l > 20 then do','if r > 60 then do','cutLeft','short prefixes are cut','C83: see result',FM),
(M+'FailMessage.lean','(min r buffer.length, buffer)','(r, buffer)','cutRight','the mark is longer than the line','C83: the mark is inside of the line shown',FM),
(M+'FailMessage.lean',"(r - l - 1) '~'","(r - l) '~'",'tildes','one tilde too many','C83: the marked part',FM),
(M+'FailMessage.lean',"List.replicate l ' ' ++ '^'","List.replicate (l + 1) ' ' ++ '^'",'message','mark shifted','C83: the mark is below the part',FM),
(M+'FailMessage.lean',"Nat.toDigits 10 st.l ++ ['\\n']","Nat.toDigits 10 (st.l + 1) ++ ['\\n']",'message','columns from one','C83: the column',FM),
]
MUTS=[m for m in MUTS if m]
