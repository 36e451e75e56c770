M='Model/'
PO=['Verif.Props.Polygon']; JS=['Verif.Props.JavaSortHack']; CH=['Verif.Props.ConvexHull']; CD=['Verif.Props.ConvexDisk']; MC=['Verif.Props.MinCost']; EN=['Verif.Props.Engine']; FA=['Verif.Props.Families']; EC=['Verif.Props.EngineCost']
MUTS=[
# the archived polygon generator
(M+'Polygon.lean','if cf ≠ 0 ∧ cf.sign * cl.sign ≤ 0','if cf ≠ 0 ∧ cf.sign * cl.sign ≥ 0','cutEnds','cut lines that do not separate the ends','C104: the result is a simple polygon',PO),
(M+'Polygon.lean','if cf ≠ 0 ∧ cf.sign * cl.sign ≤ 0','if cf.sign * cl.sign ≤ 0','cutEnds','cut line through the first point','C104: the result is a simple polygon',PO),
(M+'Polygon.lean','.ok (decide (c.sign = cf.sign))','.ok (decide (c.sign ≠ cf.sign))','sideOf','sides exchanged','C104: the result is a simple polygon',PO),
(M+'Polygon.lean','.ok (decide (d.sign = df.sign))','.ok true','sideOf','cut points always in the first part','C104: the recursion ends',PO),
(M+'Polygon.lean','if p = a then ((toFront a p ps).1, c :: (toFront a p ps).2)','if p = a then ((toFront a p ps).1, p :: (toFront a p ps).2)','toFront','element overwritten in place of a swap','C104: the result is a rearrangement of the points',PO),
(M+'Polygon.lean','  | c :: ps => (toFront a c ps).1 :: (toFront a c ps).2','  | c :: ps => c :: ps','cutFront','cut point not moved to the front','C104: the result is a simple polygon',PO),
(M+'Polygon.lean','pure (r1.dropLast ++ r2)','pure (r1 ++ r2)','findLine','shared point twice','C104: the result is a rearrangement of the points',PO),
(M+'Polygon.lean','let r2 ← findLine part loop f (r1.drop (r1.length - 1) ++ right.drop 1)','let r2 ← findLine part loop f (right.take 1 ++ right.drop 1)','findLine','second range from the cut, not the end of the first result (the same)','none: equivalent, the first call keeps its last element',PO),
(M+'Polygon.lean','if c = 0 then pickA','if c ≠ 0 then pickA','pickA','loop condition negated','C104: a cut point that is not on the line of the ends',PO),
(M+'Polygon.lean','  let l ← lift (chk (l + 1))\n','','point','lower bound -dim','C104: coordinates in (-dim, dim)',PO),
(M+'Polygon.lean','  let y ← integer l dim\n  pure (x, y)','  pure (x, x)','point','both coordinates equal','C104: all points are equally likely',PO),
(M+'Polygon.lean','swapAt l 1 (l.length - 1)','swapAt l 0 (l.length - 1)','swapSecond','first and last point swapped','C104: the closing edge joins the two first points in the direction',PO),
(M+'Polygon.lean','(a.1 * dir.1 + a.2 * dir.2 < b.1 * dir.1 + b.2 * dir.2)','(a.1 * dir.1 - a.2 * dir.2 < b.1 * dir.1 + b.2 * dir.2)','dirLess','sign of the second product','C104: the comparator is a strict weak ordering',PO),
(M+'Polygon.lean','  lift (judgeAssert (decide (n ≥ 3)))\n','','polygon','less than three points not refused','C104: n < 3 throws',PO),
(M+'Polygon.lean','let ay ← chk (a.2 - p.2)','let ay ← chk (a.2 + p.2)','dotP','not relative to p','C104: the recursion ends without right angles',PO),
# the archived generator against Java's sort
(M+'JavaSortHack.lean','def INSERTION_SORT_THRESHOLD : Int := 47','def INSERTION_SORT_THRESHOLD : Int := 7','INSERTION_SORT_THRESHOLD','short segments','C103: permutations for n < 47',JS),
(M+'JavaSortHack.lean','let mx ← chk (st.mx - 1)\n    let d ← wr n st.data i st.mx','let mx ← chk (st.mx - 1)\n    let d ← wr n st.data i mx','useMax','decrement before use (the correction of the defect)','C103_permutation_refuted: the program is not a permutation generator',JS),
(M+'JavaSortHack.lean','{ st with data := d, mn := mn }','{ st with data := d }','useMin','minimum not increased','C103: the values are different',JS),
(M+'JavaSortHack.lean','let st ← useMax n (e 0) st\n  useMax n (e 1) st','let st ← useMax n (e 1) st\n  useMax n (e 0) st','fillFive','order of the two maxima','none: all values are still used once; a claim about the order of values only',JS),
(M+'JavaSortHack.lean','wr n tmp i v','wr n tmp k v','unshuffle','positions not undone','none for the set of values; the permutation property does not see the order',JS),
(M+'JavaSortHack.lean','let d ← wr n d (less - 1) pivot1','let d ← wr n d (less - 1) pivot2','placePivots','wrong pivot','C103: the values are different',JS),
(M+'JavaSortHack.lean','let st ← hackedSort n f left (less - 2) st\n','','hackedSort','left part forgotten','C103: every place gets a value',JS),
(M+'JavaSortHack.lean','lift (judgeAssert (decide (0 ≤ n)))\n','','javaSortHack','negative length not refused','C103: a negative length throws',JS),
# the archived convex hull
(M+'ConvexHull.lean','if c < 0 then popLoop','if c ≤ 0 then popLoop','popLoop','points on edges removed','C101: the hull keeps the points on its edges',CH),
(M+'ConvexHull.lean','if c < 0 then popLoop','if c > 0 then popLoop','popLoop','wrong orientation','C101: the hull is convex',CH),
(M+'ConvexHull.lean','let h ← chain h.length (p.reverse.drop 1) h','let h ← chain 1 (p.reverse.drop 1) h','convexHull','second chain removes points of the first one','C101: the hull contains all points',CH),
(M+'ConvexHull.lean','(p.reverse.drop 1)','p.reverse','convexHull','last point of the first chain again','C101: the points of the hull are different up to the repeated first one',CH),
(M+'ConvexHull.lean','if a = b then unique (b :: l)','if a.1 = b.1 then unique (b :: l)','unique','points with the same x are equal','C101: the hull contains all points',CH),
(M+'ConvexHull.lean','if a.1 = b.1 then decide (a.2 < b.2)','if a.1 = b.1 then false','ptLess','second coordinate ignored','C101: the hull contains all points',CH),
# convexDisk
(M+'ConvexDisk.lean','if r ≤ d ∧ d < dim','if r ≤ d','sampleRing','no upper bound','C102: the points are in the disk',CD),
(M+'ConvexDisk.lean','  let res ← lift (popBack res)\n  let res ← shuffle','  let res ← shuffle','convexDisk','second pop_back removed','C102: C102 theorems about the exact result',CD),
(M+'ConvexDisk.lean','lift (convexHull (resize n.toNat res))','lift ((convexHull (resize n.toNat res)).map List.dropLast)','convexDisk','last point removed (the correction of the defect)','C102_count_refuted: the first point is repeated',CD),
# minimum cost flow
(M+'Flow.lean','let s ← chk (5 * s)\n','let s ← chk (4 * s)\n','mcmfWorstcase','factor 4 in place of 5','C99: exponentially many rounds',MC),
(M+'Flow.lean','let res ← res.add 1 (n + 1) (inf, 0)','let res ← res.add 1 (n + 1) (0, 0)','mcmfWorstcase','no capacity on the first middle edge','C99: exponentially many rounds',MC),
(M+'Flow.lean','sinkLoop n n.toNat 0 res','sinkLoop n (n.toNat - 1) 0 res','mcmfWorstcase','one edge to the sink missing','C99: exponentially many rounds',MC),
# families
(M+'Rand.lean','popcount64 x &&& 1 = 1','x &&& 1 = 1','bitWord','lowest bit in place of the parity','C97: bit is the parity of a word',['Verif.Props.RandInt','Verif.Props.Reproducible']),
(M+'Rand.lean','if x * s % 2 ^ 64 < s then rejectLoop','if x * s % 2 ^ 64 < 0 then rejectLoop','acceptWord','no rejection','C02, C98: all values are equally likely',['Verif.Props.RandInt']),
(M+'Rand.lean','p01 % 2 ^ 32) % 2 ^ 64','p01 / 2 ^ 32) % 2 ^ 64','mulHigh32','high half in the middle sum','C97: the same values with and without 128-bit numbers',['Verif.Props.RandInt','Verif.Props.Reproducible']),
]
