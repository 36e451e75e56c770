F = "Model/FloatBtrs.lean"
T = ["Verif.Props.FloatBtrs"]
MUTS = [
 (F, "if res < 0 ∨ res > n then", "if res > n then", "Fp.btrsStep", "negative candidates accepted", "C118: range", T),
 (F, "if res < 0 ∨ res > n then", "if res < 0 ∨ res > n + 1 then", "Fp.btrsStep", "candidate n + 1 accepted", "C118: range", T),
 (F, "if res < 0 ∨ res > n then", "if res < 0 ∧ res > n then", "Fp.btrsStep", "'or' becomes 'and'", "C118: range", T),
 (F, "some (.ok (if swap then n - res else res), ws)", "some (.ok (if swap then res else n - res), ws)", "Fp.btrsLoop", "failures and successes exchanged", "C118: law of the loop", T),
 (F, "some (.ok (if swap then n - res else res), ws)", "some (.ok (if swap then n - res + 1 else res), ws)", "Fp.btrsLoop", "off by one for p > 1/2", "C118: range", T),
 (F, "| some (.ok none, ws) => btrsLoop F L n swap p C fuel ws", "| some (.ok none, ws) => some (.ok 0, ws)", "Fp.btrsLoop", "0 instead of another iteration", "C118: law of the loop", T),
 (F, "| some (.error e, ws) => some (.error e, ws)\n    | some (.ok none, ws)", "| some (.error _, ws) => btrsLoop F L n swap p C fuel ws\n    | some (.ok none, ws)", "Fp.btrsLoop", "undefined behaviour ignored", "C118: defined results", T),
 (F, "let us := sub F (.fin (1 / 2)) (abs u)", "let us := add F (.fin (1 / 2)) (abs u)", "Fp.btrsStep", "no division by zero (a repaired program)", "C118_defined_refuted", T),
 (F, "| .ok t => some (.ok (if t then some res else none), ws)", "| .ok t => some (.ok (if t then none else some res), ws)", "Fp.btrsStep", "last test negated", "none: the law of one iteration in floating point is not shown", T),
]
