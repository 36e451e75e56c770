import json,re,glob,os
# status overrides and notes
NOTE=json.load(open('/verif/tools/notes.json')) if os.path.exists('/verif/tools/notes.json') else {}
props=[json.loads(l)['id'] for l in open('/verif/properties.jsonl')]
th={}
for f in sorted(glob.glob('/verif/lean/Verif/Props/**/*.lean',recursive=True)):
    s=open(f).read()
    for m in re.finditer(r'^theorem (C\d\d+)(_\w+)',s,re.M):
        th.setdefault(m.group(1),[]).append('ICPC.Props.'+m.group(1)+m.group(2))
claims=[]
for p in props:
    n=NOTE.get(p,{})
    t=th.get(p,[])
    if n.get('status'): st=n['status']
    elif t and any(x.endswith('_partial') or 'refuted' in x for x in t): st='partial'
    elif t: st='proved'
    else: st='partial' 
    if not t and not n.get('status'):
        claims.append(dict(property=p,status='partial',theorems=[],note='not proved yet: '+n.get('note','planned, see DESIGN.md')))
        continue
    claims.append(dict(property=p,status=st,theorems=t,note=n.get('note','')))
json.dump({'claims':claims},open('/verif/MANIFEST.json','w'),indent=1,ensure_ascii=False)
from collections import Counter
print(Counter(c['status'] if c['theorems'] else 'open' for c in claims), sum(len(c['theorems']) for c in claims))
print('missing:',[c['property'] for c in claims if not c['theorems']])
