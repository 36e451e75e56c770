#!/usr/bin/env python3
"""usage: mut.py muts.py   -- muts.py defines MUTS = [(file, old, new, definition, edit, claim, [targets])]"""
import sys,os,re,subprocess,json,shutil
SRC='/verif/lean'; D='/tmp/mut/lean'
BASE='/tmp/mut/base'
def snapshot():
    """the committed sources, never the working tree: unfinished edits must not look like failures"""
    shutil.rmtree(BASE,ignore_errors=True); os.makedirs(BASE)
    subprocess.run('git -C /verif archive HEAD lean | tar x -C '+BASE,shell=True,check=True)
def sync():
    os.makedirs(D,exist_ok=True)
    shutil.rmtree(D+'/Verif',ignore_errors=True)
    shutil.copytree(BASE+'/lean/Verif',D+'/Verif')
    for f in ('Verif.lean','lakefile.toml'): shutil.copy2(f'{BASE}/lean/{f}',f'{D}/{f}')
    if not os.path.exists(D+'/.lake'): shutil.copytree(SRC+'/.lake',D+'/.lake',symlinks=True)
    if os.path.exists(f'{SRC}/lake-manifest.json'): shutil.copy2(f'{SRC}/lake-manifest.json',f'{D}/lake-manifest.json')
def decl(path,line):
    ls=open(path).read().split('\n')
    ns=''
    for i in range(min(line,len(ls))-1,-1,-1):
        m=re.match(r'(?:@\[[^\]]*\]\s*)?(?:private |noncomputable |protected )*(theorem|lemma|def|structure|example|instance|inductive|abbrev)\b\s*(\S*)',ls[i])
        if m: return 'example@%s:%d'%(os.path.basename(path),i+1) if m.group(1)=='example' else m.group(2)
    return '?'
def stub(path,line):
    """scratch copy only: replaces the proof of the theorem around the given line by sorry, so that the build
    gets as far as the property theorems and examples"""
    ls=open(path).read().split('\n')
    for i in range(min(line,len(ls))-1,-1,-1):
        m=re.match(r'(?:@\[[^\]]*\]\s*)?(?:private |protected )*(theorem|lemma|def|example|instance|inductive|structure|abbrev)\b',ls[i])
        if m: break
    else: return False
    if m.group(1) not in('theorem','lemma'): return False
    j=i+1
    while j<len(ls) and not re.match(r'(/--|@\[|theorem|lemma|def|example|instance|inductive|structure|abbrev|namespace|end|section|private|protected|noncomputable|variable|open|set_option|attribute|mutual|#)',ls[j]): j+=1
    t='\n'.join(ls[i:j]); d=0; k=None
    for q,ch in enumerate(t):
        if ch in '([{⟨': d+=1
        elif ch in ')]}⟩': d-=1
        elif d==0 and t.startswith(':=',q): k=q; break
    if k is None: return False
    ls[i:j]=(t[:k]+':= sorry').split('\n')+['']
    open(path,'w').write('\n'.join(ls)); return True
DEEP='--deep' in sys.argv
if DEEP: sys.argv.remove('--deep')
def build(targets):
    r=subprocess.run(['timeout','1500','nice','lake','build']+targets,cwd=D,capture_output=True,text=True)
    return r,r.stdout+r.stderr
ns={}
exec(open(sys.argv[1]).read(),ns)
only=sys.argv[2:]
snapshot(); sync()
r0,o0=build(['Verif'])
if r0.returncode: print('baseline does not build',o0[-2000:]); sys.exit(1)
for k,(f,old,new,df,edit,claim,targets) in enumerate(ns['MUTS']):
    if only and str(k) not in only: continue
    sync()
    p=f'{D}/Verif/{f}'
    s=open(p).read()
    if s.count(old)<1: print('!! pattern not found',k,old); continue
    open(p,'w').write(s.replace(old,new,1))
    r,out=build(targets)
    failed=[]
    for m in re.finditer(r'error: (Verif/\S+?\.lean):(\d+):',out):
        d=decl(f'{D}/{m.group(1)}',int(m.group(2)))
        if d not in failed: failed.append(d)
    blocked=[]
    for t in targets:
        if r.returncode!=0 and not re.search(r'error: '+t.replace('.','/')+r'\.lean',out): blocked.append(t)
    deep=[]; r.rc0=1
    strong=any(re.match(r'C\d\d_|example@',x) for x in failed)
    if DEEP and failed and (blocked or not strong):
        for _ in range(16):
            errs=sorted({(m.group(1),int(m.group(2))) for m in re.finditer(r'error: (Verif/\S+?\.lean):(\d+):',out)},reverse=True)
            errs=[e for e in errs if '/Props/' not in e[0] or not re.match(r'C\d\d_|example@',decl(f'{D}/{e[0]}',e[1]))]
            todo={}
            for e in errs: todo[(e[0],decl(f'{D}/{e[0]}',e[1]))]=e[1]   # errs is in reverse order: first line wins
            ok=bool(errs)
            for (f2,_),ln in sorted(todo.items(),key=lambda t:(t[0][0],-t[1])): ok=stub(f'{D}/{f2}',ln) and ok
            if not ok: break
            r,out=build(targets)
        for m in re.finditer(r'error: (Verif/Props/\S+?\.lean):(\d+):',out):
            d=decl(f'{D}/{m.group(1)}',int(m.group(2)))
            if d not in deep and re.match(r'C\d\d_|example@',d): deep.append(d)
        print('   deep:',deep,'' if not re.search(r'error: Verif/(?!Props)',out) else 'INCOMPLETE',flush=True)
        r.rc0=r.returncode; r.returncode=1
    complete=bool(DEEP and (blocked or not strong) and (r.rc0==0 or deep) and not re.search(r'error: Verif/(?!Props)',out))
    rec=dict(after_stubbing=deep,deep_complete=complete,definition=df,file='lean/Verif/'+f,edit=edit,claim=claim,failed=failed,not_reached=blocked if r.returncode else [],tightened=[])
    status='SURVIVED' if r.returncode==0 else 'killed'
    print(k,status,df,'|',edit,'|',failed[:6],'| nr',blocked if r.returncode else [],flush=True)
    if r.returncode==124 or (r.returncode!=0 and not failed): print(out[-1500:],flush=True)
    with open('/tmp/mutlog.jsonl','a') as g: g.write(json.dumps(dict(rec,status=status,rc=r.returncode),ensure_ascii=False)+'\n')
sync()
