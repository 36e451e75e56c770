M='Model/'
K=['Verif.Props.Constraint']
P=['Verif.Props.Command']
U=['Verif.Props.Multipass']
G=['Verif.Props.GraphVal']
MUTS=[
(M+'Constraint.lean','hadMax := b.hadMax || o.hits value upper','hadMax := o.hits value upper','Bounds.update','flag for the upper bound forgets earlier values','C38: the flags cover all logged values',K),
(M+'Constraint.lean','max := stdMax o b.max value','max := stdMax o b.max upper','Bounds.update','maximum of the bounds instead of the values','C38: largest logged value',K),
(M+'Constraint.lean','lower := stdMin o b.lower lower','lower := lower','Bounds.update','lower bound of the last call only','C38: smallest lower bound',K),
(M+'Constraint.lean','let upper ← chk (upper - 1)','let upper ← chk upper','Constraint.updateInt','upper bound not made inclusive','C38: reaching the largest allowed value sets the flag',K),
(M+'Constraint.lean','judgeAssert (decide (c.type = some X))','judgeAssert true','Constraint.updateInt','types of one name may differ','C38: misuse throws',K),
(M+'Constraint.lean','| some i => .ok (l, i)','| some i => .ok (l, 0)','Logger.get','known names refer to the first constraint','C38: entries of different names are kept apart',K),
(M+'Constraint.lean','  judgeAssert (isToken name)\n','','Logger.get','names with white space accepted','C38: names are tokens',K),
(M+'Constraint.lean','if c.type.isSome then\n','if true then\n','Constraint.line','constraints without entries are written','C38: one line per used name',K),
(M+'Command.lean','decide (s.length > 2) && s.take 2','decide (s.length ≥ 2) && s.take 2','isCommand','-- alone is a command','C39: what is a command',P),
(M+'Command.lean','judgeAssert (m.lookup command).isNone','judgeAssert true','addCommand','repeated commands accepted','C39: repeated commands throw',P),
(M+'Command.lean','parserLoop rest (i + 1) s (i + 1) 0 commands tokens','parserLoop rest (i + 1) s i 0 commands tokens','parserLoop','a command is its own first argument','C39: the arguments follow the command',P),
(M+'Command.lean','if (m.lookup k).isSome then m else m ++ [(k, v)]','(k, v) :: m','emplaceToken','the last occurrence counts','C39: getRaw takes the first occurrence',P),
(M+'Command.lean','if 0 ≤ i ∧ i < c.count then','if 0 ≤ i ∧ i ≤ c.count then','Command.param','one parameter too many','C39: arguments of a command',P),
(M+'Command.lean','def Command.asStrings (c : Command) : List (List Char) := (c.raw.drop c.first).take c.count','def Command.asStrings (c : Command) : List (List Char) := c.raw.drop c.first','Command.asStrings','arguments of later commands included','C39: arguments of a command',P),
(M+'Multipass.lean','let pass ← chk (readPass content + 1)','let pass ← chk (readPass content)','multipassInit','pass not counted','C40: the state of the previous pass is read',U),
(M+'Multipass.lean','if pass % 2 ≠ 0 then (".state1", ".state0") else (".state0", ".state1")','if pass % 2 ≠ 0 then (".state1", ".state0") else (".state0", ".state0")','multipassInit','even passes read the file they write','C40: the state of the previous pass is read',U),
(M+'Multipass.lean','let d := (d.put s.next none).put s.next (some [])','let d := d.put s.next (some ((d s.next).getD []))','multipassInit','old state not removed','C40: exactly the text of the previous pass',U),
(M+'GraphVal.lean','.ok (r, u.set n (r : Int))','.ok (r, u.set n (n : Int))','findSetFuel','path compression creates a cycle','C42: union-find is reachability',G),
(M+'GraphVal.lean','.ok (r, u.set n (r : Int))','.ok (v.toNat, u.set n (r : Int))','findSetFuel','parent returned instead of the root','C42: union-find is reachability',G),
(M+'GraphVal.lean','if x > y then .ok (u.set a b)','if x > y then .ok (u.set b a)','linkSets','the larger tree is attached to the smaller one','none: only the running time changes',G),
(M+'GraphVal.lean','else .ok ((u.set a b).set b (y - 1))','else .ok ((u.set b a).set b (y - 1))','linkSets','rank stored at the child','C42: union-find is reachability',G),
(M+'GraphVal.lean','  if !c then do\n    let (x, u) ← findSet u a','  if c then do\n    let (x, u) ← findSet u a','unionSets','condition inverted','C42/C43: components are joined',G),
(M+'GraphVal.lean','  if !c then do\n    let (x, u) ← findSet u a\n    let (y, u) ← findSet u b\n    let u ← linkSets u x y','  if !c then do\n    let u ← linkSets u a b','unionSets','arguments linked instead of their roots','C42: union-find is reachability',G),
(M+'GraphVal.lean','let components := if joined then g.components - 1 else g.components','let components := g.components - 1','Graph.addEdge','every edge reduces the number of components','C42: isConnected',G),
(M+'GraphVal.lean','let forest := if joined then g.forest else false','let forest := joined','Graph.addEdge','only the last edge decides','C43: isForest',G),
(M+'GraphVal.lean','let (_, buf) ← unionSets buf (2 * i + 1) (2 * j)\n','','Graph.addEdge','second union of the doubled graph forgotten','C44: isBipartite',G),
(M+'GraphVal.lean','let (_, buf) ← unionSets g.buf (2 * i) (2 * j + 1)\n','let (_, buf) ← unionSets g.buf (2 * i) (2 * j)\n','Graph.addEdge','same copies joined','C44: isBipartite',G),
(M+'GraphVal.lean','bipartite := g.bipartite && !c }','bipartite := !c }','Graph.addEdge','earlier odd cycles forgotten','C44: isBipartite',G),
(M+'GraphVal.lean','let base := { base with adj := base.adj.set j (setInsert (base.adj.getD j []) a) }\n','','Graph.addEdge','only one direction stored','C45: neighbours',G),
(M+'GraphVal.lean','let selfloop := if a = b then some a else g.selfloop','let selfloop := if a = b then some a else none','BaseGraph.addEdge','loops forgotten by later edges','C45: hasSelfloop',G),
(M+'GraphVal.lean','let multiedge := if s.contains b then','let multiedge := if s.contains a then','BaseGraph.addEdge','wrong end looked up','C45: hasMultiedge',G),
(M+'GraphVal.lean','def Graph.isTree (g : Graph) : Bool := decide (g.components ≤ 1) && g.forest','def Graph.isTree (g : Graph) : Bool := decide (g.base.edges + 1 = g.base.adj.length)','Graph.isTree','only the number of edges is tested','C43: isTree',G),
(M+'GraphVal.lean','def Graph.isConnected (g : Graph) : Bool := decide (g.components ≤ 1)','def Graph.isConnected (g : Graph) : Bool := decide (g.components = 1)','Graph.isConnected','the graph without vertices is not connected','C42: isConnected',G),
(M+'GraphVal.lean','let root := if !joined then base.adj.length else g.root','let root := g.root','DiGraph.addEdge','cycles not recorded','C47: isTree',G),
(M+'GraphVal.lean','let rootCount := if (g.rev.getD j []).isEmpty then g.rootCount - 1 else g.rootCount','let rootCount := g.rootCount - 1','DiGraph.addEdge','every edge reduces the number of roots','C47: isTree',G),
(M+'GraphVal.lean','if g.rootCount = 1 ∧ g.base.edges + 1 = g.base.adj.length then','if g.rootCount = 1 then','DiGraph.isTree','number of edges not tested','C47: isTree',G),
(M+'GraphVal.lean','if x < y then x :: y :: ys else if x = y then y :: ys else','if x < y then x :: y :: ys else','setInsert','repeated elements kept','C45: degree is the number of neighbours',G),
(M+'GraphVal.lean','let deg := g.base.adj.map List.length\n','let deg := g.rev.map List.length\n','DiGraph.isDAG','in-degrees instead of out-degrees (repair)','C46 (repair of the defect)',G),
]
