M='Model/'
CR=['Verif.Props.CaseRegex']; AM=['Verif.Props.ArchiveMain']; AL=['Verif.Props.Alphabet']
C=M+'CaseRegex.lean'; A=M+'ArchiveMain.lean'; B=M+'Alphabet.lean'; R=M+'RandSeq.lean'
MUTS=[
# caseSensitive.regex
(C,"p.compile (!caseSensitive)","p.compile caseSensitive",'settingRegex','flag inverted','C108_regex: the case matters exactly if the setting is on',CR),
(C,"if icase then toLowerC x == toLowerC c else x == c","if icase then toLowerC x == c else x == c",'Pattern.compile','pattern not folded: capital letters of the pattern match nothing','C108_regex: words of the pattern up to case',CR),
(C,"|| decide (a ≤ toUpperC x ∧ toUpperC x ≤ b) else","else",'Pattern.compile','ranges only contain lower case','C108_regex: ranges up to case',CR),
(C,"| star p => .star (p.compile icase)","| star p => .star (p.compile false)",'Pattern.compile','repetitions always case sensitive','C108_regex',CR),
(C,"def verify (n : Int) : Bool := n == 6","def verify (n : Int) : Bool := n != 6",'verify','test negated','C87_output2',CR),
(C,"  let (n, _) ← Stream.integer juryCfg jury\n  let team ← Stream.newline","  let (n, team) ← Stream.integer teamCfg team\n  let team ← Stream.newline",'teamSolution','reads from the stream of the team (the intended program)','C87_output2_refuted: a right solution is never accepted',CR),
(C,"if same j t then verdict AC\n  else if same t yes then verdict FAIL","if same j t then verdict AC\n  else if same t yes then verdict WA",'outputValidator2','WA when only the team has a solution','C87_output2: verdict FAIL',CR),
(C,"(options juryCfg.caseSensitive) team","(options true) team",'outputValidator2','answer of the team always case sensitive','C87_output2_partial: no in any case is accepted',CR),
# main functions of the archive
(A,"  write (.int points.length) ++ ['\\n'] ++ joinRange '\\n'","  write (.int points.length) ++ ['\\n'] ++ joinRange ' '",'writePoints','all points in one line','C109_polygon: one line per point',AM),
(A,"  write (.int points.length) ++ ['\\n'] ++ joinRange '\\n'","  write (.int (points.length + 1)) ++ ['\\n'] ++ joinRange '\\n'",'writePoints','wrong count','C109_polygon: the number of points is written',AM),
(A,"write (.pair (.int p.1) (.int p.2))","write (.pair (.int p.2) (.int p.1))",'writePoints','coordinates exchanged','C109_polygon: the validator reads the points',AM),
(A,"(.int p.2))) ++ ['\\n']","(.int p.2)))",'writePoints','no line break at the end','C109_polygon',AM),
(A,"  let a ← argument g.arguments \"--n\".toList default1\n  let b ← argument g.arguments second default2","  let a ← argument g.arguments \"--n\".toList default1\n  let b ← argument g.arguments \"--n\".toList default2",'readArguments','second argument read from --n','C109_arguments',AM),
(A,"  pure (a, b)","  pure (b, a)",'readArguments','arguments exchanged','C109_arguments',AM),
(A,"  asIntegerOr c.token default","  asInteger c.token",'argument','no default value','C109_arguments: default value',AM),
(A,"\"--dim\".toList 100000 1000000000)\n  let points ← polygon","\"--dim\".toList 1000 1000000000)\n  let points ← polygon",'polygonMain','other default for n','C109_polygon: default 100000',AM),
(A,"\"--min\".toList 100000 1)","\"--min\".toList 100000 0)",'javaSortHackMain','other default for min','C109_javaSortHack: default 1',AM),
(A,"pure (write (.int a.1) ++ ['\\n']","pure (write (.int a.2) ++ ['\\n']",'javaSortHackMain','writes min instead of n','C109_javaSortHack',AM),
(A,"joinRange DEFAULT_SEPARATOR (data.map","joinRange '\\n' (data.map",'javaSortHackMain','one number per line','C109_javaSortHack: one line',AM),
(A,"  let g ← generatorInit parse argv g\n","  let p ← parseArgs argv\n  let g := { g with arguments := p }\n",'readArguments','seed and settings ignored','C109_throws: a bad seed is an exception',AM),
# alphabets and laws
(B,"def UPPER : List Char := LETTER.take 26","def UPPER : List Char := LETTER.take 25",'UPPER','Z missing','C110_alphabets',AL),
(B,'"BCDFGHJKLMNPQRSTVWXYZbcdfghjklmnpqrstvwxyz"','"BCDFGHJKLMNPQRSTVWXYZbcdfghjklmnpqrstvwxy"','CONSONANT','z missing','C110_alphabets, C110_functions',AL),
(B,'"AEIOUaeiou"','"AEIOUaeiuu"','VOWEL','o replaced by a second u','C110_alphabets',AL),
(B,"ALPHA_NUMERIC.take (10 + 26)","ALPHA_NUMERIC.drop (10 + 26)",'UPPER_ALPHA_NUMERIC','the wrong half','C110_alphabets',AL),
(B,"randomString n LOWER","randomString n LETTER",'randomStringDefault','other default alphabet','C110_string_default: small letters',AL),
(R,"    let c ← select alphabet\n    let rest ← stringLoop alphabet n\n    pure (c :: rest)","    let c ← select alphabet\n    let rest ← stringLoop alphabet n\n    pure (match rest with | [] => [c] | d :: _ => d :: rest)",'stringLoop','all characters equal','C110_string_law: characters are independent',['Verif.Props.RandSeq','Verif.Props.Alphabet']),
(R,"pure (if b then (p.2, p.1) else p)","pure (if b then (p.2, p.1) else (p.2, p.1))",'shufflePair','always exchanges','C110_shufflePair',AL),
(R,"  let r ← integer 0 l.length\n  pure (l.drop r.toNat ++ l.take r.toNat, r)","  let r ← integer 0 1\n  pure (l.drop r.toNat ++ l.take r.toNat, r)",'rotate','never rotates','C110_rotate_uniform: all rotations',['Verif.Props.RandSeq','Verif.Props.Alphabet']),
]
