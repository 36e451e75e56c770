F='Model/FloatDist.lean'
D=['Verif.Props.FloatDist']; B=['Verif.Props.FloatDist','Verif.Props.Rejection']
MUTS=[
(F,"(.ok (div F (neg (log (.fin p.1))) lambda), p.2)","(.ok (div F (log (.fin p.1)) lambda), p.2)",'Fp.exponential','the sign is missing','C114_exponential_nonneg, C114_exponential_law',D),
(F,"(.ok (div F (neg (log (.fin p.1))) lambda), p.2)","(.ok (mul F (neg (log (.fin p.1))) lambda), p.2)",'Fp.exponential','multiplied with lambda (lambda as mean)','C114_exponential_law',D),
(F,"(.ok (div F (neg (log (.fin p.1))) lambda), p.2)","(.ok (div F (neg (log (sub F (.fin 1) (.fin p.1)))) lambda), p.2)",'Fp.exponential','log(1 - real()), which is log(0) if the difference rounds to 0','C114_exponential_nonneg: no NaN',D),
(F,"(.ok (div F (neg (log (.fin p.1))) lambda), p.2)","(.ok (div F (neg (log (.fin p.1))) lambda), p.2.tail)",'Fp.exponential','a word is lost','none of C114; the result is the same',D),
(F,"if !lt (.fin 0) lambda then some (.error .throw, ws)\n  else (realWords","if !le (.fin 0) lambda then some (.error .throw, ws)\n  else (realWords",'Fp.exponential','lambda = 0 accepted','C114_throws',D),
(F,"if !lt (.fin 0) lambda then some (.error .throw, ws)\n  else (realWords","if le lambda (.fin 0) then some (.error .throw, ws)\n  else (realWords",'Fp.exponential','negated comparison: a NaN lambda is accepted','C114_throws',D),
(F,"let res := sub F lower (div F (log (.fin x)) lambda)","let res := add F lower (div F (log (.fin x)) lambda)",'Fp.exponentialLoop','lower + log','C114_exponential_range: at least lower',B),
(F,"let res := sub F lower (div F (log (.fin x)) lambda)","let res := sub F (.fin 0) (div F (log (.fin x)) lambda)",'Fp.exponentialLoop','lower not added','C114_exponential_range, C115_exponential',B),
(F,"if lt res upper then some (.ok res, ws) else exponentialLoop","if le res upper then some (.ok res, ws) else exponentialLoop",'Fp.exponentialLoop','upper itself accepted','C114_exponential_range, C115_exponential',B),
(F,"if lt res upper then some (.ok res, ws) else exponentialLoop F log lower upper lambda fuel ws","some (.ok (if lt res upper then res else lower), ws)",'Fp.exponentialLoop','lower instead of another iteration','C115_exponential: conditional law',B),
(F,"else if isnan upper then some (.error .throw, ws)\n","",'Fp.exponentialIn','no test for NaN','none: a NaN is not above lower, so the next assertion throws',B),
(F,"if !isfinite lower then some (.error .throw, ws)\n  else if isnan","if isnan",'Fp.exponentialIn','infinite lower accepted','none of C114 (its theorems have finite lower); C114_throws does not list infinite bounds',B),
(F,"else if !lt lower upper then some (.error .throw, ws)\n","",'Fp.exponentialIn','no test of the order of the bounds','C114_throws',B),
(F,"llround (floor (div F (log (.fin x)) lg))","llround (div F (log (.fin x)) lg)",'Fp.gap','rounded to the nearest instead of down','C114_geometric_law',D),
(F,"llround (floor (div F (log (.fin x)) lg))","llround (neg (floor (neg (div F (log (.fin x)) lg))))",'Fp.gap','rounded up: number of trials instead of failures','C114_geometric_law',D),
(F,"llround (floor (div F (log (.fin x)) lg))","llround (floor (div F lg (log (.fin x))))",'Fp.gap','quotient the wrong way round','C114_geometric_law',D),
(F,"(gap F log r.1 (log1p (neg p)), r.2)","(gap F log r.1 (log p), r.2)",'Fp.geometric','log(p): 1-p instead of p','C114_geometric_law',D),
(F,"(gap F log r.1 (log1p (neg p)), r.2)","(gap F log r.1 (log1p p), r.2)",'Fp.geometric','log1p(p)','C114_geometric_law',D),
(F,"if !(le (.fin 0) p && lt p (.fin 1)) then some (.error .throw, ws)\n  else (realWords","if !(le (.fin 0) p && le p (.fin 1)) then some (.error .throw, ws)\n  else (realWords",'Fp.geometric','p = 1 accepted','C114_throws',D),
(F,"match gap F log x (log1p (neg p)) >>= fun g => chk (lower + g) with","match gap F log x (log1p (neg p)) >>= fun g => chk g with",'Fp.geometricLoop','lower not added','C114_geometric_range, C115_geometric',B),
(F,"if res < upper then some (.ok res, ws) else geometricLoop","if res ≤ upper then some (.ok res, ws) else geometricLoop",'Fp.geometricLoop','upper itself accepted','C114_geometric_range, C115_geometric',B),
(F,"if res < upper then some (.ok res, ws) else geometricLoop F log log1p lower upper p fuel ws","some (.ok (if res < upper then res else upper - 1), ws)",'Fp.geometricLoop','clamped instead of redrawn','C115_geometric',B),
(F,"if !decide (lower < upper) then some (.error .throw, ws)\n  else if !(le","if !(le",'Fp.geometricIn','no test of the bounds','C114_throws',B),
(F,"chk (if 0 ≤ q then ⌊q + 1 / 2⌋ else ⌈q - 1 / 2⌉)","chk (if 0 ≤ q then ⌊q + 1⌋ else ⌈q - 1 / 2⌉)",'Fp.llround','rounds up by one','C114_geometric_law',D),
]
