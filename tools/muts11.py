M='Model/'
FI=['Verif.Props.Files']; GP=['Verif.Props.GraphPower']; NU=['Verif.Props.Num']
MUTS=[
# the files of validators
(M+'Files.lean','def messageMode : OpenMode := { out := true, ate := true }','def messageMode : OpenMode := { out := true, app := true }','messageMode','appending (the correction of the defect)','C105_kept_refuted: old messages are lost',FI),
(M+'Files.lean','def messageMode : OpenMode := { out := true, ate := true }','def messageMode : OpenMode := { out := true, ate := true, inp := true }','messageMode','opened for reading too','C105_init: init returns if the message files can be written; C105_kept_refuted',FI),
(M+'Files.lean','let jury ← outputStream messageMode (join dir "judgemessage.txt")','let jury ← outputStream messageMode (join dir "teammessage.txt")','initFiles','both streams write to teammessage.txt','C105: judgemessage.txt contains what was written to juryOut',FI),
(M+'Files.lean','let dir ← lift (argAt g.arguments 3)','let dir ← lift (argAt g.arguments 2)','initFiles','directory from the second argument','C105: the files are in the feedback directory',FI),
(M+'Files.lean','    let b ← lift (argAt g.arguments 2)\n    let answer ← inputStream b','    let b ← lift (argAt g.arguments 1)\n    let answer ← inputStream b','initFiles','answer read from the input file','C105: the program gets the answer',FI),
(M+'Files.lean','let (next, prev) := if pass % 2 ≠ 0','let (next, prev) := if pass % 2 = 0','passState','parity of the state files','C105: every pass gets the state of its predecessor',FI),
(M+'Files.lean','let pass ← lift (chk (readPass t + 1))','let pass ← lift (chk (readPass t))','passState','pass not counted','C105: pass k has the number k',FI),
(M+'Files.lean','let text ← inputStream (join dir prev)','let text ← inputStream (join dir next)','passState','state read from the file that is written','C105: every pass gets the state of its predecessor',FI),
(M+'Files.lean','(f.write (printInt pass) fs).2','(f.write (printInt (pass + 1)) fs).2','multipassFiles','number of the next pass stored','C105: pass k has the number k',FI),
(M+'Files.lean','({ s with buffer := s.buffer ++ text }, fs)','({ s with buffer := text ++ s.buffer }, fs)','Sess.say','pieces of nextpass in reverse order','C105: nextpass.in contains what was written to nextpass',FI),
(M+'Files.lean','({ s with buffer := s.buffer ++ text }, fs)','({ s with buffer := text }, fs)','Sess.say','only the last piece of nextpass','C105: nextpass.in contains what was written to nextpass',FI),
(M+'Files.lean','({ f with pos := pos + text.length }, ','(f, ','OutFile.write','position not advanced','C105: the messages are what was written',FI),
(M+'Files.lean','old.take pos ++ text ++ old.drop (pos + text.length)','old.take pos ++ text ++ old.drop pos','OutFile.write','inserts in place of overwriting','none here: all files are written at their ends',FI),
(M+'Files.lean','let (s, fs) := s.say c [\'\\n\'] fs\n','','finishFiles','no line break after the verdict','C105: the verdict ends its line',FI),
(M+'Files.lean','let f ← outputStream outMode (join s.dir "nextpass.in")','let f ← outputStream outMode (join s.dir "nextpass.out")','finishFiles','wrong name','C105: nextpass.in contains what was written to nextpass',FI),
(M+'Files.lean','lift (.error (.exit 42))','lift (.error (.exit 43))','finishFiles','NEXT rejects','C105: NEXT ends with the code of an accepted pass',FI),
(M+'Files.lean','    change (writeLog s logged)\n','','finishFiles','constraints not logged by NEXT','C105: the log of the constraints is written',FI),
(M+'Files.lean','change fun fs => (f.write s.buffer fs).2','change fun fs => fs','finishFiles','buffer not written','C105: nextpass.in contains what was written to nextpass',FI),
(M+'Files.lean','  change fun fs => fs.put (join s.dir next) none\n','','multipassFiles','old state file not removed','none: opening truncates it',FI),
(M+'Files.lean','| .team => let (f, fs) := s.team.write text fs; ({ s with team := f }, fs)','| .team => let (f, fs) := s.jury.write text fs; ({ s with jury := f }, fs)','Sess.say','team messages to the jury','C105: teammessage.txt contains what was written to teamOut',FI),
(M+'Files.lean',"| some c => if c = '/' then dir ++ name.toList else dir ++ '/' :: name.toList","| some _ => dir ++ name.toList",'join','no separator','the names of the files (theorems name them by join; the example names them in full)',FI),
# power of graphs, range
(M+'GraphOps.lean','    if d < k then do\n      let nb','    if d ≤ k then do\n      let nb','powerBfs','one step too far','C55: power joins the pairs at distance at most k',GP),
(M+'GraphOps.lean','let r := powerScan g.minId (d + 1) nb seen','let r := powerScan g.minId d nb seen','powerBfs','distances not counted','C55: power joins the pairs at distance at most k',GP),
(M+'GraphOps.lean','powerScan minId d l (seen.set (e.dst - minId).toNat true)','powerScan minId d l seen','powerScan','neighbours not marked','C55: every pair once',GP),
(M+'GraphOps.lean','q.1.foldl (fun seen x => seen.set x.1.toNat false) q.2)','q.2)','power','marks not removed','C55: power joins the pairs at distance at most k, for all starts',GP),
(M+'GraphOps.lean','(q.1.filter fun x => decide (i ≠ x.1))','(q.1.filter fun x => decide (x.1 < i))','power','every pair only once for undirected graphs (the correction of the defect)','C55_power_undirected: every pair is stored twice',GP),
(M+'Num.lean','if step < 0 then (2 ^ 64 - n) % 2 ^ 64 else n','n','rangeDistance','no negation for negative steps','C23: range counts down',NU),
(M+'Num.lean','let rest ← rangeLoop step (size - 1) frm','let rest ← rangeLoop step size frm','range','one number too many','C23: range ends before the bound',NU),
(M+'Num.lean','def rangeUpper (upper : Int) : Out (List Int) := range 0 upper 1','def rangeUpper (upper : Int) : Out (List Int) := range 1 upper 1','rangeUpper','starts at one','C23: range(upper) is 0..upper-1',NU),
(M+'Num.lean','  judgeAssert (decide (step ≠ 0))\n  if step > 0 ∧ to ≤ frm','  if step > 0 ∧ to ≤ frm','range','step zero not refused','C23: step zero throws',NU),
]
