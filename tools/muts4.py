M='Model/'
GE=['Verif.Props.Geo']
MUTS=[
(M+'Geo.lean','if c2 = 0 then return false\n    noStraightLoop','if c2 ≠ c2 then return false\n    noStraightLoop','noStraightLoop','straight angles allowed','C29: strictly convex',GE),
]
