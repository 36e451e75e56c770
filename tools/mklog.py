#!/usr/bin/env python3
"""Turns the raw results of mut.py (/tmp/mutlog.jsonl) into seeded/LOG.jsonl; later results replace earlier ones
of the same edit, but an edit that survived first keeps the note about the tightening."""
import json,re,glob
KIND={}
for f in glob.glob('/verif/lean/Verif/**/*.lean',recursive=True):
    for m in re.finditer(r'^(?:@\[[^\]]*\]\s*)?(?:private |noncomputable |protected )*(theorem|lemma|def|structure|instance|inductive|abbrev)\b\s*(\S+)',open(f).read(),re.M):
        KIND.setdefault(m.group(2),set()).add(m.group(1))
def result(d):
    F=d['failed']
    if d['status']=='SURVIVED': return 'no theorem failed'
    if any(re.match(r'C\d\d_',x) for x in F): return 'property theorem failed'
    if any(x.startswith('example@') for x in F): return 'concrete example failed'
    if F and all(x in KIND and KIND[x]<={'def','structure','instance','inductive','abbrev'} for x in F):
        return 'invalid: the edited model does not compile, says nothing about the theorems'
    if d.get('deep_complete') and d['after_stubbing']: return 'supporting lemma failed; with it assumed, concrete examples or property theorems fail as well'
    if F: return 'supporting lemma failed, property theorems not reached (weaker evidence)'
    return 'inconclusive'
FIX={('areIncreasing','< becomes <='):'C19',('areNonIncreasing','>= becomes <='):'C19'}
TIGHT=json.load(open('/verif/tools/tightened.json'))
rows={}
for l in open('/tmp/mutlog.jsonl'):
    d=json.loads(l)
    k=(d['definition'],d['edit'])
    rows[k]=d
with open('/verif/seeded/LOG.jsonl','w') as g:
    for k,d in rows.items():
        c=d['claim']
        if k in FIX: c=FIX[k]+c[3:]
        if d['definition']=='areDistinct': c='C20'+c[3:]
        t=TIGHT.get(d['definition']+'|'+d['edit'],[])
        g.write(json.dumps({'definition':d['definition'],'file':d['file'],'edit':d['edit'],'claim':c,
          'failed':d['failed'],'not_reached':d['not_reached'],'after_stubbing_lemmas':d['after_stubbing'] if d.get('deep_complete') else None,'tightened':t,
          'result':result(d)},ensure_ascii=False)+'\n')
# results of automut.py (/tmp/amut/log.jsonl): edits made automatically, so no claim was formulated in advance
SURVIVOR={
 ('seedKey',257):('equivalent for the claims: they hold for every key constant, none fixes its bytes',[]),
 ('fold',280):('survived; tightened',['ICPC.Props.C96_word (new)','ICPC.Props.C96_equidistributed (new)']),
 ('Logger.step',130):('equivalent: the position was returned by Logger.get, this branch is not reached',[]),
 ('leftHalf',16):('equivalent: the branch is taken for nonzero values only',[]),
 ('lessValue',28):('equivalent: cyclicSort calls it only if no comparison fails',[]),
 ('cyclicSort',33):('equivalent for the claims: C71 shows that this branch is not reached',[]),
 ('substr',56):('equivalent for the claims: every call is shown to have a smaller position',[]),
 ('hypercube',99):('survived; tightened',['ICPC.Props.C52_negative (new)']),
 ('sub',54):('equivalent for the claims: floatEqual subtracts finite numbers only',[]),
 ('signbit',103):('equivalent for the claims: floatEqual asks for signs of infinities and NaN only',[]),
 ('ptAt',45):('equivalent: indices are shown to be in range',[]),
}
import os
if os.path.exists('/tmp/amut/log.jsonl'):
    seen={}
    for l in open('/tmp/amut/log.jsonl'):
        d=json.loads(l); seen[(d['file'],d['line'],d['old'],d['new'],d['context'])]=d
    with open('/verif/seeded/LOG.jsonl','a') as g:
        for d in seen.values():
            if d['result'] in('invalid','inconclusive'): continue
            F=d['failed']; r,t=result(dict(d,status='killed',failed=F)),[]
            if d['result']=='survived': r,t=SURVIVOR.get((d['definition'],d['line']),('no theorem failed, not yet examined',[])); r='no theorem failed; '+r
            elif r=='inconclusive' or r.startswith('invalid'): continue
            g.write(json.dumps({'definition':d['definition'],'file':'lean/Verif/Model/'+d['file'],'edit':f"automatic: {d['old'].strip()} becomes {d['new'].strip()} in: {d['context']}",
              'claim':'none formulated in advance (automatic edit)','failed':F,'not_reached':None,'after_stubbing_lemmas':None,'tightened':t,'result':r},ensure_ascii=False)+'\n')
