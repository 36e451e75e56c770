M='Model/'
WR=['Verif.Props.Writer']; LI=['Verif.Props.Lifetime']
W=M+'Writer.lean'; L=M+'Lifetime.lean'
MUTS=[
# objects made by join
(W,"| some (.vec _ _), some l => .ok (.values l sep)","| some (.vec _ _), some _ => .ok (.range b i j sep)",'joinContainer','rvalue vectors are captured as iterators','C106_rvalue: an rvalue is stored and printed whatever happens to the memory',WR),
(W,"  else .ok (joinIterators b i j sep)","  else .ok (joinIterators b (i + 1) j sep)",'joinContainer','first element skipped','C106_now: all elements are printed',WR),
(W,"  if rvalue then\n    match m.obj a","  if !rvalue then\n    match m.obj a",'joinContainer','lvalues stored, rvalues referenced','C106_rvalue, C106_lvalue',WR),
(W,"if rvalue then .values l sep else joinIterators b 0 l.length sep","if rvalue then .values l sep else joinIterators b 0 (l.length - 1) sep",'joinArray','last element of an lvalue array missing','C106_now',WR),
(W,"if rvalue then .values l sep else joinIterators b 0 l.length sep","joinIterators b 0 l.length sep",'joinArray','rvalue arrays are captured as iterators','C106_rvalue',WR),
(W,"if rvalue then .fields l sep else .tuple b l.length sep","if rvalue then .tuple b l.length sep else .tuple b l.length sep",'joinTupleLike','rvalue tuples are captured by reference','C106_rvalue',WR),
(W,"if rvalue then .fields l sep else .tuple b l.length sep",".fields l sep",'joinTupleLike','lvalue tuples are copied','C106_tuple: later changes of an lvalue tuple are printed',WR),
(W,"if rvalue then .values l.dropLast sep else joinIterators b 0 (l.length - 1) sep","if rvalue then .values l sep else joinIterators b 0 (l.length - 1) sep",'joinChars','rvalue char array with its null character','C106: of a char array all but the last character',WR),
(W,"if rvalue then .values l.dropLast sep else joinIterators b 0 (l.length - 1) sep","if rvalue then .values l.dropLast sep else joinIterators b 0 l.length sep",'joinChars','lvalue char array with its null character','C106: of a char array all but the last character',WR),
(W,"let rest ← printRange pr m b j sep fuel (i + 1) false","let rest ← printRange pr m b j sep fuel (i + 1) isFirst",'printRange','isFirst never reset','C106: separators between elements',WR),
(W,"(if !isFirst && sep != NOSEP then [sep] else [])","(if sep != NOSEP then [sep] else [])",'printRange','separator before the first element','C106: separators between elements only',WR),
(W,"(if !isFirst && sep != NOSEP then [sep] else [])","(if !isFirst then [sep] else [])",'printRange','null character printed','C106: the null character is no separator',WR),
(W,"let rest ← printRange pr m b j sep fuel (i + 1) false","let rest ← printRange pr m b j sep fuel (i + 2) false",'printRange','every second element','C106_now',WR),
(W,"  | .refs args sep => do\n    let xs ← derefAll m args\n    .ok (joinTuple sep (xs.map pr))","  | .refs args sep => do\n    let xs ← derefAll m args.reverse\n    .ok (joinTuple sep (xs.map pr))",'print','arguments in reverse order','C106_list: the arguments in order',WR),
(W,"let xs ← derefAll m ((List.range n).map fun k => (b, k))","let xs ← derefAll m ((List.range (n - 1)).map fun k => (b, k))",'print','last field missing','C106_tuple',WR),
(W,"| .values l sep => .ok (joinRange sep (l.map pr))","| .values l sep => .ok (joinRange ' ' (l.map pr))",'print','separator ignored','C106_rvalue',WR),
# images and their files
(L,"    if c.isEmpty im.pic then .ok w\n","    if !c.isEmpty im.pic then .ok w\n",'save','condition negated','C107_destroyed',LI),
(L,"if w.canWrite p then .ok (w.setFile p t) else .ok w",".ok w",'save','the file is not written','C107_destroyed',LI),
(L,"    let w ← save c o w\n    .ok (w.setObj x none)","    .ok (w.setObj x none)",'exec','the destructor does not write','C107_destroyed, C107_visualizer',LI),
(L,"      let w := w.setObj x (some b)\n","      let w := w.setObj x (some ⟨a.fileName, b.pic⟩)\n",'exec','move assignment keeps the old file name','C107_move, C107_visualizer: image gets its file',LI),
(L,"      let w := w.setObj x (some b)\n","      let w := w.setObj x (some ⟨b.fileName, a.pic⟩)\n",'exec','move assignment keeps the old picture','C107_move: x has the picture of y',LI),
(L,"(some ⟨b.fileName.map fun _ => junk, if swap then a.pic else c.blank⟩)","(some b)",'exec','a moved object keeps its picture','C107_move: destroying y changes no file',LI),
(L,"    let w ← run c (initActs (name ++ ext.toList) junk swap) w\n","    let w ← run c (initActs name junk swap) w\n",'visualizer','no extension','C107_visualizer',LI),
(L,'(w.files (name ++ ".ans".toList))','(w.files (name ++ ".out".toList))','visualizer','answer read from name.out','C107_visualizer: the body gets name.ans; C107_example',LI),
(L,"  match argv[1]? with","  match argv[0]? with",'visualizer','name of the program used','C107_visualizer, C107_no_name',LI),
(L,"    exec c w (.drop 0)","    .ok w",'visualizer','image is not destroyed','C107_visualizer',LI),
(L,"[.make 1 (some name), .move 0 1 junk swap, .drop 1]","[.make 1 (some name), .drop 1]",'initActs','init does not assign image','C107_visualizer',LI),
(L,"isEmpty im := decide (Png.width im = 0)","isEmpty im := decide (Png.width im ≤ 1)",'png','pictures with one column are not written','C107_png_partial',LI),
(L,"    .ok (w.setObj x (some { o with pic := q }))","    .ok (w.setObj x (some ⟨none, q⟩))",'exec','drawing forgets the name','C107_visualizer',LI),
(L,"else .ok (w.setObj x (some ⟨name, c.blank⟩))","else .ok (w.setObj x (some ⟨none, c.blank⟩))",'exec','the constructor ignores the name','C107_visualizer',LI),
(L,"    let _ ← w.get x\n    let o ← w.get y\n    .ok (w.setObj x (some o))","    let a ← w.get x\n    let o ← w.get y\n    .ok (w.setObj x (some ⟨some [], a.pic⟩))",'exec','assignment sets an empty file name','C107_visualizer: other files do not change',LI),
]
