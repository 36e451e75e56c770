M='Model/'
Q=['Verif.Props.RandSeq']
I=['Verif.Props.Input']
MUTS=[
(M+'RandSeq.lean','pure (if b then p.1 else p.2)','pure p.1','selectPair','always the first component','C15: select is uniform',Q),
(M+'Regex.lean',".alt (.lit '0') (.cat (.opt (.lit '-')) (.cat (.range '1' '9')",".alt (.lit '0') (.cat (.opt (.lit '-')) (.cat (.range '0' '9')",'INTEGER_REGEX','leading zeros allowed','C31: canonical notation only',I),
(M+'Regex.lean',".alt (.lit '0') (.cat (.opt (.lit '-'))",".alt (.lit '0') (.cat (.opt (.alt (.lit '+') (.lit '-')))",'INTEGER_REGEX','plus sign allowed','C31: canonical notation only',I),
(M+'Stream.lean',"if v < lower ∨ v ≥ upper then fail cfg else .ok (v, rest)","if v < lower ∨ v > upper then fail cfg else .ok (v, rest)",'integerBounded','upper bound inclusive','C31: lower <= v < upper',I),
(M+'Stream.lean',"  let s ← noteof cfg s\n  if cfg.spaceSensitive && badStart s then fail cfg","  let s ← noteof cfg s\n  if false && badStart s then fail cfg",'string','no check of the first character','C32: a token must start with a printable character (leading white space is refused anyway, as the token is then empty)',I),
(M+'Stream.lean',"(if cfg.spaceSensitive then s else skipWs s)" if False else "let s := if cfg.spaceSensitive then s else skipWs s\n  (s.takeWhile","let s := skipWs s\n  (s.takeWhile",'extract','noskipws not set','none: equivalent program',I),
(M+'Stream.lean',"def badStart : List Char → Bool\n  | [] => true\n  | c :: _ => !isGraphC c","def badStart : List Char → Bool\n  | [] => true\n  | c :: _ => c == ' '",'badStart','only a space is refused at the start of a token','C32: a token must start with a printable character (newlines and tabs are refused anyway, as the token is then empty)',I),
(M+'Stream.lean',"| n + 2, s => do\n    let (a, s) ← one s\n    let s ← sep s","| n + 2, s => do\n    let (a, s) ← one s\n    let s ← pure s",'manyLoop','separators are not read','C32/C34: separators between elements',I),
(M+'Stream.lean',"| 1, s => do\n    let (a, s) ← one s\n    .ok ([a], s)","| 1, s => do\n    let (a, s) ← one s\n    let s ← sep s\n    .ok ([a], s)",'manyLoop','separator also after the last element','C32/C34: no separator at the end',I),
(M+'Stream.lean',"else if separator = '\\n' then .ok (newline cfg)","else if separator = '\\n' then .ok (space cfg)",'checkSeparator','space instead of newline','C32: the requested separators',I),
(M+'Stream.lean',"def eof (s : List Char) : Out (List Char) :=\n  let s := if !cfg.spaceSensitive then skipWs s else s","def eof (s : List Char) : Out (List Char) :=\n  let s := skipWs s",'eof','trailing white space accepted in strict mode','C32/C37: byte-exact end of file',I),
(M+'Stream.lean',"def eof (s : List Char) : Out (List Char) :=\n  let s := if !cfg.spaceSensitive then skipWs s else s","def eof (s : List Char) : Out (List Char) :=\n  let s := s",'eof','trailing white space refused in insensitive mode','C33/C37',I),
(M+'Stream.lean',"if !(stringEqual cfg.defaultLower seen expected cfg.caseSensitive).value","if !(stringEqual cfg.defaultLower seen expected false).value",'expectString','case is ignored','C35: exact comparison on case sensitive streams',I),
(M+'Stream.lean',"if seen ≠ expected then fail cfg else .ok rest","if seen < expected then fail cfg else .ok rest",'expectInt','larger values accepted','C35: expectInt',I),
(M+'Stream.lean',"if ops.close seen expected then fail cfg else .ok rest","if !ops.close seen expected then fail cfg else .ok rest",'expectReal','condition repaired','C35 (repair of the defect)',I),
(M+'Stream.lean',"if (decimals t : Int) < minDecimals ∨ (decimals t : Int) ≥ maxDecimals","if (decimals t : Int) < minDecimals ∨ (decimals t : Int) > maxDecimals",'realStrict','one decimal too many','C36: number of decimals',I),
(M+'Stream.lean',"  | _ :: ds => ds.length","  | ds => ds.length",'decimals','point counted as a decimal','C36: number of decimals',I),
(M+'Regex.lean',"(.cat (.opt (.lit '.')) (.star reDigit)))","(.cat (.opt (.lit ',')) (.star reDigit)))",'STRICT_REAL_REGEX','comma instead of point','C36: plain notation',I),
(M+'Stream.lean',"let s := if !cfg.spaceSensitive then skipWs s else s\n  if s.isEmpty then fail cfg else .ok s","if s.isEmpty then fail cfg else .ok s",'noteof','white space not skipped before the test for the end','C33/C37 (equivalent: extraction then finds nothing)',I),
(M+'Stream.lean',"def space (s : List Char) : Out (List Char) :=\n  if cfg.spaceSensitive then do","def space (s : List Char) : Out (List Char) :=\n  if true then do",'space','space required in insensitive mode','C33: kind of white space does not matter',I),
(M+'Stream.lean',"if I64 v then some (v, rest) else none","some (v, rest)",'fromChars','no range check','C31: 64 bit',I),
(M+'Stream.lean',"if (t.length : Int) < lower ∨ (t.length : Int) ≥ upper","if (t.length : Int) < lower ∨ (t.length : Int) > upper",'stringBounded','upper bound inclusive','C32: length bounds',I),
(M+'Output.lean',"(if !isFirst && separator != NOSEP then [separator] else [])","(if separator != NOSEP then [separator] else [])",'joinLoop','separator before the first element','C41',I),
(M+'Output.lean',"(if i = 0 then [] else [separator])","(if i ≤ 1 then [] else [separator])",'joinTupleLoop','first separator missing','C41',I),
(M+'Output.lean',"write a ++ [DEFAULT_SEPARATOR] ++ write b","write a ++ write b",'write','pair without separator','C41',I),
]
