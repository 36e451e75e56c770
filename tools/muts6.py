M='Model/'
GG=['Verif.Props.GraphGen']; GO=['Verif.Props.GraphOps']; FA=['Verif.Props.Families']; RG=['Verif.Props.RandomGraph']
TR=['Verif.Props.Tree']; DG=['Verif.Props.DegreeGraph']; SI=['Verif.Props.Simple']; IN=['Verif.Props.Init']; CX=['Verif.Props.Convex']
PN=['Verif.Props.Png']; SV=['Verif.Props.Svg']; AE=['Verif.Props.Aes']; RN=['Verif.Props.Rng']
MUTS=[
# graph container
(M+'GraphGen.lean','g.edges ++ [⟨xorI u v, v, d⟩]','g.edges ++ [⟨xorI u v, u, d⟩]','Graph.emplaceEdge','the source is stored as the target','C48: edges are listed as they were added',GG),
(M+'GraphGen.lean','if !g.dir && decide (r.src ≠ r.dst) then','if decide (r.src ≠ r.dst) then','Graph.addInternal','directed edges are entered at both ends','C48: neighbours and degrees of directed graphs',GG),
(M+'GraphGen.lean','{ g with edges := g.edges.set i { r with data := d } }','g','Graph.addEdge','adding an edge again keeps the old data','C48: the last data counts',GG),
(M+'GraphGen.lean','if i ≠ last then (do let x ← g.addInternal i; pure x.1) else pure g','pure g','Graph.eraseFound','the edge moved into the gap is not entered again','C48: erasing one edge leaves the others',GG),
(M+'GraphGen.lean','    let g ← g.eraseBoth b.src b.dst last\n','','Graph.eraseFound','the old entry of the moved edge is kept','C48: erasing one edge leaves the others',GG),
(M+'GraphGen.lean','judgeAssert (decide (u ≠ v)); g.adjAt u','g.adjAt u','Graph.addEdge','self loops accepted','C48: no self loops',GG),
(M+'GraphGen.lean','  buildAdj { g.clearAdj with edges := edges, minId := m }','  buildAdj { g with edges := edges, minId := m }','Graph.setMinId','old entries are not cleared','C48: setMinId only moves the ids',GG),
# operators
(M+'GraphOps.lean','(j + g.minId, i + g.minId)] else [])','(i + g.minId, j + g.minId)] else [])','Graph.complement','one direction twice','C55: complement of directed graphs',GO),
(M+'GraphOps.lean','let b ← g.hasEdge p.1 p.2; pure !b','let b ← g.hasEdge p.1 p.2; pure b','Graph.complement','keeps the edges of the graph','C55: complement',GO),
(M+'GraphOps.lean','    if d < k then do\n      let nb','    if d ≤ k then do\n      let nb','Graph.powerBfs','one step too far','C55: power',GO),
(M+'GraphOps.lean','(b - o.minId) * g.nodeCount + (a - g.minId)','(b - o.minId) * o.nodeCount + (a - g.minId)','Graph.newId','wrong row length','C55: products',GO),
(M+'GraphOps.lean','decide (e1.data < e2.data)','decide (e1.data ≤ e2.data)','Graph.lineRow','every edge is its own neighbour','C55: line graph',GO),
(M+'GraphOps.lean','    let a ← tmp.neighbours e1.dst\n    pure (a.map','    let a ← tmp.neighbours e1.src\n    pure (a.map','Graph.lineRow','successors of the source instead of the target','C55: line graph of directed graphs',GO),
(M+'GraphOps.lean','  let diff ← chk (s - o.minId)\n','  let diff ← chk (s - g.minId)\n','Graph.append','offset from the wrong graph','C55: append is the disjoint union',GO),
(M+'GraphOps.lean','    let u ← Rand.lift (permAt perm (r.src - minId))\n    let v ← Rand.lift (permAt perm (r.dst - minId))','    let u ← Rand.lift (permAt perm (r.src - minId))\n    let v ← Rand.lift (permAt perm (r.src - minId))','Graph.permLoop','both ends get the image of the source','C55: permutate is an isomorphism',GO),
# families
(M+'Families.lean','(intRange 0 j).map fun i => (i, j)','(intRange 0 (j - 1)).map fun i => (i, j)','cliquePairs','neighbouring vertices are not joined','C52: clique',FA),
(M+'Families.lean','fun j => (i, n + j)','fun j => (i, m + j)','bipartitePairs','wrong offset of the second side','C52: bipartite',FA),
(M+'Families.lean','  let b ← b.setMinId p\n  a.combine b\n\n/-- `broom`','  let b ← b.setMinId (p + 1)\n  a.combine b\n\n/-- `broom`','lolly','the clique is not attached','C52: lolly',FA),
(M+'Families.lean','    res.add 0 next default) res','    res.add next 0 default) res','attach','edges towards the root','C52: completeTree is directed away from the root',FA),
(M+'Families.lean','decide (orI i j = i)','decide (orI i j ≠ i)','latticePairs','edges to supersets','C52: booleanLattice',FA),
# random graphs
(M+'RandomGraph.lean','      let i ← chk (n - 1)\n      pure (i, j)','      let i ← chk (n - 2)\n      pure (i, j)','graphPair','diagonal mapped to another row','C49: directed random graphs are uniform',RG),
(M+'RandomGraph.lean','    let i ← chk (n - 2 - i)','    let i ← chk (n - 1 - i)','graphPair','lower half reflected to the wrong row','C49: undirected random graphs are uniform',RG),
(M+'RandomGraph.lean','  if dir then pure l else pure (l.tdiv 2)','  pure (l.tdiv 2)','graphLim','half of the pairs for directed graphs','C49: directed random graphs are uniform',RG),
(M+'RandomGraph.lean','    let j ← chk (j - m)','    let j ← chk (j - n)','bipPair','wrong offset for the reversed direction','C56: randomBipartite',RG),
# trees
(M+'Tree.lean','(if c = 0 then x else -1)','(if c = 0 ∧ x < current then x else -1)','prueferLoop','a vertex that became a leaf at the current position is skipped','none or C50: see result',TR),
(M+'Tree.lean','if 0 ≤ skip ∧ skip ≤ current then','if 0 ≤ skip then','getNext','a new leaf is always taken at once','C50: pruefer decodes Pruefer codes',TR),
(M+'Tree.lean','(current + 1)\n','(current)\n','getNext','the scan starts with the vertex just used','C50: pruefer gives a tree',TR),
(M+'Tree.lean','let code ← randomCode n (n - 2).toNat','let code ← randomCode (n - 1) (n - 2).toNat','randomTree','the last vertex never occurs in the code','C50: random trees are uniform',TR),
(M+'Tree.lean','      let res ← res.add cur e.dst default','      let res ← res.add e.dst cur default','orient','edges towards the root','C50: random directed trees are directed away from the root',TR),
# degrees
(M+'DegreeGraph.lean','if pairLt x e then e :: x :: q','if pairLt e x then e :: x :: q','pqPush','smallest degree first','C51: fails only if the degrees are not graphical',DG),
(M+'DegreeGraph.lean','(if dd > 0 then todo ++ [(dd, cc)] else todo)','(todo ++ [(dd, cc)])','connect','vertices without missing edges are kept','C51: degrees',DG),
(M+'DegreeGraph.lean','        let res ← res.add a.src b.dst default\n        res.add b.src a.dst default','        let res ← res.add a.src b.src default\n        res.add b.dst a.dst default','flip','joins the two sources, which was not checked','C51: flips keep the degrees',DG),
(M+'DegreeGraph.lean','      let s ← blocked res b.src a.dst\n','      let s ← blocked res a.src b.dst\n','flip','the second new edge is not checked','C51: flips keep the degrees',DG),
(M+'DegreeGraph.lean','if (q.length : Int) < d ∨ d < 0 then','if (q.length : Int) ≤ d ∨ d < 0 then','havelHakimi','degree n-1 refused','C51: every graphical sequence is realised',DG),
# isSimple
(M+'IsSimple.lean','if distN s.id o.id = 1 ∨ distN s.id o.id = n - 1 then return false','if distN s.id o.id = 1 then return false','segIntersect','first and last edge count as crossing','C67: simple polygons are accepted',SI),
(M+'IsSimple.lean','  if ¬ u ≤ 0 then return false','  if ¬ u < 0 then return false','segIntersect','touching edges are missed','C67: touching polygons are rejected',SI),
(M+'IsSimple.lean','    let bad ← hitsPrev n A\' k\n','    let bad ← hitsNext n A\' k\n','sweepRemove','wrong pair of neighbours after a removal','C67: crossing polygons are rejected',SI),
(M+'IsSimple.lean','  let bad2 ← hitsNext pts.length A\' k\n  return if bad2 then none else some A\'','  return some A\'','sweepInsert','only the lower neighbour is checked','C67: crossing polygons are rejected',SI),
(M+'IsSimple.lean','mkEv l.1 l.2 false sw i :: mkEv r.1 r.2 true sw i','mkEv l.1 l.2 true sw i :: mkEv r.1 r.2 false sw i','eventsLoop','insertion and removal exchanged','C67: no undefined behaviour, simple polygons are accepted',SI),
(M+'IsSimple.lean','  if d > 0 then return true\n','','segLtDirect','collinear left end: only the y-coordinates are compared','C67: simple polygons are accepted',SI),
# init
(M+'Init.lean','  judgeAssert (!g.inited)\n  pure { g with settings','  pure { g with settings','Globals.assign','settings may change after init','C69: settings are frozen',IN),
(M+'Init.lean','  let g ← relFrom parse floatTolerance g\n','','baseInit','float_tolerance sets one tolerance only','C69: float_tolerance sets both tolerances',IN),
(M+'Init.lean','  pure { g with inited := true }','  pure g','baseInit','init does not freeze the settings','C69: settings are frozen',IN),
(M+'Init.lean','def WA : Nat := 43','def WA : Nat := 42','WA','wrong verdict','C70: bad team output gives WA',IN),
(M+'Init.lean','  let juryAns ← fileStream eps g 2','  let juryAns ← fileStream eps g 1','outputInit','the jury answer is read from the input','C70: sources of the streams',IN),
# convex
(M+'Convex.lean','if p.1 = 0 then decide (p.2 < 0) else decide (p.1 < 0)','decide (p.1 < 0)','leftHalf','vertical directions count as right','C71: strictly convex order of directions',CX),
(M+'Convex.lean','return leftHalf a && !leftHalf b','return !leftHalf a && leftHalf b','cyclicLess','right half first','none: the directions start elsewhere',CX),
(M+'Convex.lean','let x\' ← partition (2 * dim - 2) (n - left) 0','let x\' ← partition (2 * dim - 1) (n - left) 0','convexDraw','positive steps have a larger sum','C71: closed polygon',CX),
(M+'Convex.lean','  let sx ← chk (dim - 1 - maxX)','  let sx ← chk (dim - maxX)','convexPlace','shifted one too far','C71: coordinates within the bounds',CX),
(M+'Convex.lean','if (kx : Int) + ((py.length - ky : Nat) : Int) > n then pure none','if False then pure none','convexDirs','no retry if there are too many zeros','C71: no zero direction',CX),
(M+'Convex.lean','shuffleFront (decide (kx ≠ 0)) ky py','shuffleFront true py.length py','convexDirs','zeros of y are shuffled among all','C71: no zero direction',CX),
# PNG
(M+'Png.lean','(w.a + x.setWidth 32) % 65521#32','(w.a + x.setWidth 32) % 65520#32','Writer.writeU8Adler','wrong modulus','C61: the checksum of the zlib stream',PN),
(M+'Png.lean','(if y + 1 = colors.length then 1 else 0)','(if y = colors.length then 1 else 0)','writeRow','no final block','C61: the file decodes to the image',PN),
(M+'Png.lean','(colors.getD (colors.length - 1 - y) [])','(colors.getD y [])','writeRow','rows not flipped','C61: the file decodes to the image, first row at the bottom',PN),
(M+'Png.lean','BitVec.ofNat 32 (4 * size + 1)','BitVec.ofNat 32 (4 * size)','Writer.write','filter byte not counted','C61: the file decodes to the image',PN),
(M+'Png.lean','def Writer.endChunk (w : Writer) : Writer := w.writeU32 (~~~w.c)','def Writer.endChunk (w : Writer) : Writer := w.writeU32 w.c','Writer.endChunk','checksum not complemented','C61: the checksum of the chunks',PN),
(M+'Png.lean','      let (error, c) ← if e2 ≤ dx then do','      let (error, c) ← if e2 < dx then do','lineLoop','no vertical step at equality','C65: drawLine',PN),
(M+'Png.lean','p.x + dx ≥ width colors','p.x + dx > width colors','floodDirs','one column outside of the image','C64: floodFill stays inside the image',PN),
(M+'Png.lean','[(0, 1), (0, -1), (1, 0), (-1, 0)]','[(0, 1), (0, -1), (1, 0)]','DIRECTIONS','one direction missing','C64: floodFill reaches the component',PN),
# SVG
(M+'Svg.lean','width := s.dimension.width + (s.origin.x - p.x)','width := s.dimension.width + s.origin.x','Box.includeInBB','width not grown by the shift','C66: bounding box',SV),
(M+'Svg.lean','flipY s.origin.y s.dimension.height','flipY s.origin.y','Box.viewBox','top of the box not shifted by its height','C66: viewBox',SV),
(M+'Svg.lean',"if x.toNat < 16 then ['0', hexDigit x.toNat] else","if x.toNat < 16 then [hexDigit x.toNat] else",'hexByte','one digit for small values','C66: printed colours',SV),
(M+'Svg.lean','.line p1 p2 => (s.includeInBB p1).includeInBB p2','.line p1 p2 => s.includeInBB p1','Box.draw','end of a line not included','C66: bounding box',SV),
# AES
(M+'Aes.lean','def shiftRows (s : State) : State := shiftRow (shiftRow (shiftRow s 1 1) 2 2) 3 3','def shiftRows (s : State) : State := shiftRow (shiftRow (shiftRow s 1 1) 2 2) 3 1','shiftRows','last row shifted by one','C59: FIPS 197',AE),
(M+'Aes.lean','if i / 4 % 8 = 4 then subWord temp','if i / 4 % 8 = 5 then subWord temp','expandStep','wrong word of the key schedule','C59: FIPS 197',AE),
(M+'Aes.lean','if iv[i] = 0 then carry','if iv[i] = 1 then carry','carry','carry at the wrong value','C60: the counter runs through all blocks',AE),
# xoshiro
(M+'Xoshiro.lean','rotateLeft (s.s1 * 5) 7 * 9','rotateLeft (s.s1 * 5) 9 * 7','Xoshiro.next','constants exchanged','C57: the output is that of the reference',RN),
(M+'Xoshiro.lean','  let s3 := rotateLeft s3 45','  let s3 := rotateLeft s3 44','Xoshiro.next','wrong rotation','C57: reference and full period',RN),
]
