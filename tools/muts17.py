F='Model/FloatNormal.lean'
N=['Verif.Props.FloatNormal']
BM="mul F (sqrt (mul F (.fin (-2)) (log (.fin u1)))) (cos (mul F (mul F (.fin 2) (PI F)) (.fin u2)))"
SC="add F (mul F (sqrt stddev) res) mean"
OK="some (.ok (scaled F sqrt mean stddev (boxMuller F log sqrt cos u1 u2)), ws)"
MUTS=[
(F,"3141592653589793238462643383279502884 / 10 ^ 36","314159 / 10 ^ 5",'Fp.PI','PI with six digits','C116_normal_law: error bound',N),
(F,"3141592653589793238462643383279502884 / 10 ^ 36","3141592653589793238462643383279502884 / 10 ^ 35",'Fp.PI','decimal point of PI wrong','C116_normal_law',N),
(F,BM,BM.replace("(.fin (-2))","(.fin 2)"),'Fp.boxMuller','minus sign missing: square root of a negative number','C116_normal_law',N),
(F,BM,BM.replace("(.fin (-2))","(.fin (-1))"),'Fp.boxMuller','factor 2 under the root missing: half of the variance','C116_normal_law, C116_bounded_law',N),
(F,BM,BM.replace("mul F (.fin 2) (PI F)","PI F"),'Fp.boxMuller','PI * u2: half of the circle, wrong for the sine','C116_bounded_law',N),
(F,BM,BM.replace("(sqrt (mul F (.fin (-2)) (log (.fin u1))))","(mul F (.fin (-2)) (log (.fin u1)))"),'Fp.boxMuller','square root of the radius missing','C116_normal_law',N),
(F,BM,BM.replace("(.fin u2)","(.fin u1)"),'Fp.boxMuller','the same number for radius and angle','C116_normal_law',N),
(F,BM,BM.replace("log (.fin u1)","log (sub F (.fin 1) (.fin u1))"),'Fp.boxMuller','log(1 - u1), which is log(0) if real() returns 1','C116_normal_law',N),
(F,SC,"add F (mul F stddev res) mean",'Fp.scaled','stddev without square root (the documented meaning of the name)','C116_normal_law: variance stddev',N),
(F,SC,"mul F (sqrt stddev) res",'Fp.scaled','mean not added','C116_normal_law',N),
(F,SC,"mul F (sqrt stddev) (add F res mean)",'Fp.scaled','mean scaled too','C116_normal_law',N),
(F,SC,"sub F (mul F (sqrt stddev) res) mean",'Fp.scaled','mean subtracted','C116_normal_law',N),
(F,"if !le (.fin 0) stddev then some (.error .throw, ws)\n  else\n    match","if false then some (.error .throw, ws)\n  else\n    match",'Fp.normal','assertion of stddev missing','C116_throws',N),
(F,"if !le (.fin 0) stddev then some (.error .throw, ws)\n  else\n    match","if lt stddev (.fin 0) then some (.error .throw, ws)\n  else\n    match",'Fp.normal','negated comparison: a NaN stddev is accepted','C116_throws',N),
(F,"if !le (.fin 0) stddev then some (.error .throw, ws)\n  else\n    match","if !le (.fin 0) stddev then some (.error .throw, ws.tail)\n  else\n    match",'Fp.normal','a word is drawn before the assertion','C116_throws',N),
(F,OK,"some (.ok (scaled F sqrt mean stddev (boxMuller F log sqrt cos u1 u1)), ws)",'Fp.normal','u1 used twice','C116_normal_law',N),
(F,OK,"some (.ok (scaled F sqrt mean stddev (boxMuller F log sqrt cos u2 u1)), ws)",'Fp.normal','u1 and u2 swapped','none in law; the theorem about the same words is C116_conditional',N),
(F,OK,"some (.ok (boxMuller F log sqrt cos u1 u2), ws)",'Fp.normal','mean and stddev not used','C116_normal_law',N),
(F,"let res := scaled F sqrt mean stddev (boxMuller F log sqrt cos u1 u2)\n        if le lower res && lt res upper","let res := scaled F sqrt mean stddev (boxMuller F log sqrt cos u1 u2)\n        if le lower res && le res upper",'Fp.normalLoop','upper itself accepted (cosine)','C116_range',N),
(F,"let res := scaled F sqrt mean stddev (boxMuller F log sqrt cos u1 u2)\n        if le lower res && lt res upper","let res := scaled F sqrt mean stddev (boxMuller F log sqrt cos u1 u2)\n        if lt lower res && lt res upper",'Fp.normalLoop','lower itself rejected (cosine)','C116_conditional',N),
(F,"let res := scaled F sqrt mean stddev (boxMuller F log sqrt cos u1 u2)\n        if le lower res && lt res upper","let res := scaled F sqrt mean stddev (boxMuller F log sqrt cos u1 u2)\n        if le lower res || lt res upper",'Fp.normalLoop','|| instead of &&','C116_range',N),
(F,"let res := scaled F sqrt mean stddev (boxMuller F log sqrt sin u1 u2)\n          if le lower res && lt res upper","let res := scaled F sqrt mean stddev (boxMuller F log sqrt sin u1 u2)\n          if le lower res && le res upper",'Fp.normalLoop','upper itself accepted (sine)','C116_range',N),
(F,"let res := scaled F sqrt mean stddev (boxMuller F log sqrt sin u1 u2)\n          if le lower res && lt res upper","let res := scaled F sqrt mean stddev (boxMuller F log sqrt sin u1 u2)\n          if true",'Fp.normalLoop','the second value is not tested','C116_range, C116_bounded_law',N),
(F,"let res := scaled F sqrt mean stddev (boxMuller F log sqrt sin u1 u2)","let res := scaled F sqrt mean stddev (boxMuller F log sqrt cos u1 u2)",'Fp.normalLoop','cosine again instead of sine','C116_conditional, C116_bounded_law',N),
(F,"let res := scaled F sqrt mean stddev (boxMuller F log sqrt sin u1 u2)","let res := boxMuller F log sqrt sin u1 u2",'Fp.normalLoop','the second value is not scaled','C116_conditional, C116_bounded_law',N),
(F,"else normalLoop F log sqrt cos sin lower upper mean stddev fuel ws\n","else some (.ok lower, ws)\n",'Fp.normalLoop','lower instead of another iteration','C116_conditional, C116_bounded_law',N),
(F,"if isnan lower then some (.error .throw, ws)\n  else if isnan upper","if isnan upper",'Fp.normalIn','assertion of lower missing (the comparison of the bounds is false for NaN)','none, an equivalent program: survives if the proof scripts still work',N),
(F,"else if !lt lower upper then some (.error .throw, ws)\n","else if !le lower upper then some (.error .throw, ws)\n",'Fp.normalIn','lower = upper accepted, loops forever','C116_throws',N),
(F,"else if !lt lower upper then some (.error .throw, ws)\n","",'Fp.normalIn','comparison of the bounds missing','C116_throws',N),
(F,"else if !le (.fin 0) stddev then some (.error .throw, ws)\n  else normalLoop","else normalLoop",'Fp.normalIn','assertion of stddev missing','C116_throws',N),
(F,"else if !le (.fin 0) stddev then some (.error .throw, ws)\n  else normalLoop F log sqrt cos sin lower upper mean stddev fuel ws","else if !le (.fin 0) stddev then some (.error .throw, ws)\n  else normalLoop F log sqrt cos sin upper lower mean stddev fuel ws",'Fp.normalIn','bounds swapped in the loop','C116_range, C116_bounded_law',N),
]
