F = "Model/FloatBinomial.lean"
T = ["Verif.Props.FloatBinomial"]
MUTS = [
 (F, "chk (g + 1) >>= fun g => chk (y + g)", "chk (y + g)", "Fp.bgLoop", "the success itself not counted in the gap", "C117: law", T),
 (F, "chk (g + 1) >>= fun g => chk (y + g)", "chk (g + 2) >>= fun g => chk (y + g)", "Fp.bgLoop", "gap one too long", "C117: law", T),
 (F, "chk (g + 1) >>= fun g => chk (y + g)", "chk (g + 1)", "Fp.bgLoop", "position replaced by the gap instead of advanced", "C117: law, number of iterations", T),
 (F, "if y > n then", "if y ≥ n then", "Fp.bgLoop", "last trial skipped", "C117: law", T),
 (F, "if y > n then", "if y > n + 1 then", "Fp.bgLoop", "one trial too many", "C117: range", T),
 (F, "(if swap then n - res else res)", "(if swap then res else n - res)", "Fp.bgLoop", "failures and successes exchanged", "C117: law", T),
 (F, "(if swap then n - res else res)", "res", "Fp.bgLoop", "result not exchanged back for p > 1/2", "C117: law for p > 1/2", T),
 (F, "(if swap then n - res else res)", "(if swap then n - res + 1 else res)", "Fp.bgLoop", "off by one for p > 1/2", "C117: range", T),
 (F, "fuel y (res + 1) ws", "fuel y res ws", "Fp.bgLoop", "successes not counted", "C117: law", T),
 (F, "fuel y (res + 1) ws", "fuel y (res + 2) ws", "Fp.bgLoop", "successes counted twice", "C117: range", T),
 (F, "if !decide (n ≥ 0) then some (.error .throw, ws)\n  else ", "", "Fp.binomial", "assertion n >= 0 missing", "C117: throws", T),
 (F, "decide (n ≥ 0)", "decide (n > 0)", "Fp.binomial", "n = 0 throws", "C117: law for n = 0", T),
 (F, "le (.fin 0) p && le p (.fin 1)", "le (.fin 0) p", "Fp.binomial", "p > 1 accepted", "C117: throws", T),
 (F, "le (.fin 0) p && le p (.fin 1)", "le p (.fin 1)", "Fp.binomial", "negative p accepted", "C117: throws", T),
 (F, "le (.fin 0) p && le p (.fin 1)", "le (.fin 0) p && lt p (.fin 1)", "Fp.binomial", "p = 1 throws", "C117: domain", T),
 (F, "lt (.fin (1 / 2)) p", "lt p (.fin (1 / 2))", "Fp.binomial", "exchange for the wrong half", "C117: law", T),
 (F, "let p := if lt q p then q else p", "let p := p", "Fp.binomial", "p not replaced by 1 - p", "C117: law for p > 1/2", T),
 (F, "let p := if lt q p then q else p", "let p := if lt p q then q else p", "Fp.binomial", "larger one of p and 1 - p", "C117: law", T),
 (F, "log1p (neg p)", "log1p p", "Fp.binomial", "log(1 + p)", "C117: law", T),
 (F, "log1p (neg p)", "log p", "Fp.binomial", "log(p)", "C117: law", T),
 (F, "if le (.fin 0) lg then some (.ok (if swap then n else 0), ws) else ", "", "Fp.binomial", "p = 0 not treated separately", "C117: p = 0", T),
 (F, "(if swap then n else 0)", "(if swap then 0 else n)", "Fp.binomial", "wrong result for p = 0", "C117: p = 0", T),
 (F, "fuel 0 0 ws\n    else large", "fuel 1 0 ws\n    else large", "Fp.binomial", "first trial skipped", "C117: law", T),
 (F, "fuel 0 0 ws\n    else large", "fuel 0 1 ws\n    else large", "Fp.binomial", "count starts at one", "C117: law", T),
 (F, "lt (mul F p (round F n)) (.fin 10)", "!lt (mul F p (round F n)) (.fin 10)", "Fp.binomial", "methods exchanged", "C117: law", T),
]
MUTS += [
 (F, "if lower ≤ res ∧ res < upper then", "if lower ≤ res ∧ res ≤ upper then", "Fp.binomialLoop", "upper bound accepted", "C117: bounded range", T),
 (F, "if lower ≤ res ∧ res < upper then", "if lower < res ∧ res < upper then", "Fp.binomialLoop", "lower bound rejected", "C117: bounded law", T),
 (F, "if lower ≤ res ∧ res < upper then", "if res < upper then", "Fp.binomialLoop", "lower bound not checked", "C117: bounded range", T),
 (F, "| some (.error e, ws) => some (.error e, ws)\n    | some (.ok res, ws) =>", "| some (.error _, ws) => binomialLoop call lower upper fuel ws\n    | some (.ok res, ws) =>", "Fp.binomialLoop", "exceptions of binomial(n, p) swallowed", "C117: conditional law with undefined runs", T),
 (F, "decide (lower < upper)", "decide (lower ≤ upper)", "Fp.binomialIn", "empty interval accepted", "C117: throws", T),
 (F, "if !decide (lower < upper) then some (.error .throw, ws)\n  else binomialLoop", "binomialLoop", "Fp.binomialIn", "assertion missing", "C117: throws", T),
]
