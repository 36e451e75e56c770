M='Model/'
RR=['Verif.Props.RealRange']; EM=['Verif.Props.ExpectMessage']; EXT=['Verif.Props.Extremes']; EX=['Verif.Props.Examples']
GE=['Verif.Props.GraphExample']; VE=['Verif.Props.VisualizerExample']; GL=['Verif.Props.GraphLaw']; CS=['Verif.Props.ConvexSimple']
MUTS=[
# real with bounds
(M+'RealRange.lean','if le (.fin 0) res && lt res upper then some','if le (.fin 0) res && le res upper then some','realUpperLoop','the bound itself may be returned','C84: real(upper) is below upper',RR),
(M+'RealRange.lean','if le lower res && lt res upper then some','if lt res upper then some','realRangeLoop','values below the lower bound are not drawn again','C84: real(lower, upper) is not below lower',RR),
(M+'RealRange.lean','mul F lower (sub F (.fin 1) (.fin x))','mul F lower (.fin x)','realRangeLoop','weights do not add up to one','C84: real(lower, upper) is close to the exact value',RR),
(M+'RealRange.lean','  if !isfinite upper then some (.error .throw, ws)\n  else if !lt (.fin 0) upper','  if !lt (.fin 0) upper','realUpper','infinite bound allowed','C84: real(upper) throws for infinite bounds',RR),
(M+'RealRange.lean','else if !lt lower upper then some','else if !le lower upper then some','realRange','empty interval allowed','C84: real(lower, upper) throws for an empty interval',RR),
# message of expectString
(M+'ExpectMessage.lean','(pos + 1)','pos','message','position counted from 0','C86: the position of the first difference',EM),
(M+'ExpectMessage.lean','if pos > 5 then','if pos > 4 then','message','position shown one too early','C86: when the position is shown',EM),
(M+'ExpectMessage.lean','    let t ← substr s (pos - WINDOW / 2)\n    .ok (s.take PREFIX ++ TEXT_ELLIPSIS ++ t)','    let t ← substr s (pos + WINDOW / 2)\n    .ok (s.take PREFIX ++ TEXT_ELLIPSIS ++ t)','format','window after the difference','C86: the difference is shown',EM),
(M+'ExpectMessage.lean','    let t ← substr s (pos - WINDOW / 2)\n    .ok (s.take PREFIX ++ TEXT_ELLIPSIS ++ t.take WINDOW','    let t ← substr s (pos - WINDOW)\n    .ok (s.take PREFIX ++ TEXT_ELLIPSIS ++ t.take WINDOW','format','window ends before the difference','C86: the difference is shown',EM),
(M+'ExpectMessage.lean','∨ s.length ≤ pos then','then','format','difference behind the end not treated','C86: no exception for strings of different lengths',EM),
(M+'ExpectMessage.lean','let e ← format pos expected\n      let s ← format pos seen','let e ← format pos seen\n      let s ← format pos expected','message','strings exchanged','C86: expected and seen in their places',EM),
# maximum and minimum
(M+'Extremes.lean','min (upper - 1)','min upper','clampMaximum','result not limited below upper','C88: results are below upper',EXT),
(M+'Extremes.lean','(Real.logb 2 u / n)⌋','(Real.logb 2 u * n)⌋','Ideal.maximumLarge','power instead of root','C88: law of the maximum',EXT),
(M+'Extremes.lean','let u1 ← lift (chk (upper - 1))','let u1 ← lift (chk upper)','Ideal.minimumLarge','one too large','C88: law of the minimum',EXT),
(M+'Extremes.lean','let m ← maximumLarge 0 w n','let m ← maximumLarge lower w n','Ideal.minimumLarge','wrong interval','C88: law of the minimum',EXT),
(M+'Extremes.lean','(toI64 ((z.toNat + toU64 lower) % 2 ^ 64))','(toI64 (z.toNat % 2 ^ 64))','clampMaximum','lower bound not added','C88: law of the maximum',EXT),
# example programs
(M+'Examples.lean','Stream.stringBounded cfg 5 7 s','Stream.stringBounded cfg 5 8 s','inputValidator','one more letter','C87: what inputValidator.cpp accepts',EX),
(M+'Examples.lean','  let (_, s) ← Stream.integerBounded cfg 5 7 s\n  let s ← Stream.newline cfg s\n','  let (_, s) ← Stream.integerBounded cfg 5 7 s\n','inputValidator','last line break not read','C87: what inputValidator.cpp accepts',EX),
(M+'Examples.lean',"(Stream.integerBounded ansCfg 0 100) t '\\n' ans","(Stream.integerBounded ansCfg 0 100) t ' ' ans",'answerValidator','numbers on one line','C87: what answerValidator.cpp accepts',EX),
(M+'Examples.lean','(Stream.integerBounded ansCfg 0 100)','(Stream.integerBounded ansCfg 0 101)','answerValidator','larger bound','C87: what answerValidator.cpp accepts',EX),
(M+'Examples.lean','  let d ← chk (2 * ans)','  let d ← chk ans','someAnswer','answer not doubled','C87: what outputValidator.cpp accepts',EX),
(M+'Examples.lean','if n.tmod 2 = 0 then noAnswer','if n.tmod 2 = 1 then noAnswer','interactor','parity','C87: interactor.cpp',EX),
(M+'Examples.lean','if cur = last then verdict AC else verdict WA','if cur ≤ last then verdict AC else verdict WA','laterPass','weaker comparison','C87: multipassInteractor.cpp',EX),
(M+'Examples.lean','  let data ← distinct n 0 10','  let data ← distinct n 0 11','generator','bound','C87: generator.cpp',EX),
# example of the graph generator
(M+'GraphExample.lean','let res ← res.add 17 9 default','let res ← res.add 17 8 default','GraphExample.base','wrong end of an edge','C91: the graph of generator.graph.cpp',GE),
(M+'GraphExample.lean','decide (u < v)','decide (u ≤ v)','GraphExample.randomDag','not strictly upwards','none: there are no loops',GE),
(M+'GraphExample.lean','fun u v _ => decide (u < v)','fun _ _ _ => true','GraphExample.randomDag','both directions kept','C91: the result is acyclic',GE),
(M+'GraphExample.lean','dag.setMinId 1','dag.setMinId 0','GraphExample.randomDag','numbered from 0','C91: vertices are numbered from 1',GE),
(M+'GraphExample.lean','  let a ← a.append c\n','','GraphExample.base','cycle not appended','C91: the graph of generator.graph.cpp',GE),
# example visualizers
(M+'VisualizerExample.lean','⟨p.x + 1, p.y + 1⟩','⟨p.x, p.y⟩','VisualizerExample.moved','lines at the border','C93: the border ring is free',VE),
(M+'VisualizerExample.lean','  Png.floodFill fuel .assign im ⟨0, 0⟩ transparent','  Png.floodFill fuel .assign im ⟨1, 1⟩ transparent','VisualizerExample.picture','fill from an inner pixel','C93: what is connected to the border is transparent',VE),
(M+'VisualizerExample.lean','(w + 2) (h + 2) white','(h + 2) (w + 2) white','VisualizerExample.picture','width and height exchanged','C93: size of the picture',VE),
(M+'VisualizerExample.lean','⟨w + 1, h + 1⟩ (Png','⟨0, 0⟩ (Png','VisualizerExample.pngMain','only one pixel is blended','C93_png_refuted: the program does not end',VE),
(M+'VisualizerExample.lean','⟨3, 3⟩ ⟨6, 6⟩','⟨3, 3⟩ ⟨5, 5⟩','VisualizerExample.svgMain','enlarged on two sides only','C93: points are 3 away from the border',VE),
(M+'VisualizerExample.lean','.shape (.polyline answer)','.shape (.polygon answer)','VisualizerExample.svgMain','answer drawn closed','C93: shapes of the file',VE),
# laws of graph operators
(M+'GraphOps.lean','  let es ← shuffle g.edges\n  let es ← flipLoop g.dir es','  let es ← flipLoop g.dir g.edges','permutateEdges','no shuffle','C92: all orders of the edges are equally likely',GL),
(M+'GraphOps.lean','  let es ← shuffle g.edges\n  let es ← flipLoop g.dir es','  let es ← shuffle g.edges','permutateEdges','directions not chosen','C92: both ways of writing an undirected edge',GL),
(M+'GraphOps.lean','    let todo ← distinct k 0 g.edgeCount','    let todo ← Rand.lift (.ok (intRange 0 k))','subgraph','always the first edges','C92: every set of edges is equally likely',GL),
(M+'GraphOps.lean','  let perm ← shuffle ((List.range g.adj.length).map fun k : Nat => g.minId + (k : Int))\n','  let perm ← Rand.lift (.ok ((List.range g.adj.length).map fun k : Nat => g.minId + (k : Int)))\n','permutateRandom','vertices are not renamed','C92: every renaming is equally likely',GL),
# convexity
(M+'Geo.lean','    let c1 ← crossP o a b\n    if c1 < 0 then return false\n','','isConvexLoop','only neighbouring vertices are looked at','none for C90 (isSimple excludes several windings); C29: fan around the first vertex',CS),
(M+'Geo.lean','    if c2 < 0 then return false\n','','isConvexLoop','turns are not looked at','C90: convexity is decided',CS),
(M+'Geo.lean','    if c2 = 0 then return false\n    noStraightLoop','    if c2 < 0 then return false\n    noStraightLoop','noStraightLoop','straight angles accepted','C90: strict convexity is decided',CS),
]
