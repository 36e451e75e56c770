# writes lean/Verif/Lemmas/PrimeRangeData.lean, the pieces of the search that the kernel checks
import math
F1=math.factorial(131); F2=math.factorial(181)
N=2**27
o=["import Verif.Lemmas.PrimeRange","","/-!","# The search of Lemmas/PrimeRange up to 2^27","","Generated by tools/primerange.py: the checks of the kernel, in pieces.","-/","","namespace ICPC.PrimeRange","",
"/-- The search for the `i`-th odd number from 133 on, with 131! as the product of small factors. -/",
"noncomputable def small (i : Nat) : Bool := primeOk (nat_lit %d) (nat_lit %d) (Nat.add (Nat.mul (nat_lit 2) i) (nat_lit 133))"%(N,F1),"",
"/-- The search for the `i`-th odd number from 133 on, with 181! as the product of small factors. -/",
"noncomputable def large (i : Nat) : Bool := primeOk (nat_lit %d) (nat_lit %d) (Nat.add (Nat.mul (nat_lit 2) i) (nat_lit 133))"%(N,F2),""]
def build(f,k,i,kl):
    name=f"{f}_{k}_{i}"
    if k<=kl:
        o.append(f"theorem {name} : rng {f} {k} {i} = true := by decide +kernel")
    else:
        a=build(f,k-1,i,kl); b=build(f,k-1,i+2**(k-1),kl)
        o.append(f"theorem {name} : rng {f} {k} {i} = true := rng_join {a} {b}")
    return name
build('small',5,0,3)
for k,kl in((5,4),(6,5),(7,6),(8,7),(9,8),(10,9),(11,10),(12,11)):
    build('large',k,2**k,kl)
o+=["","end ICPC.PrimeRange",""]
open('/verif/lean/Verif/Lemmas/PrimeRangeData.lean','w').write("\n".join(o))
