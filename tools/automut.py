#!/usr/bin/env python3
"""usage: automut.py PER_DEF [SEED] -- small edits of definitions of the model, in a scratch copy of HEAD.
An edit is killed if a lemma, theorem or example fails; it is invalid if the model itself no longer compiles."""
import sys,os,re,subprocess,json,shutil,random,time,signal
ROOT='/tmp/amut'; D=ROOT+'/lean'; PR=ROOT+'/pristine'; OUT=ROOT+'/log.jsonl'
PER=int(sys.argv[1]); SEED=int(sys.argv[2]) if len(sys.argv)>2 else 1
ALL='--all' in sys.argv
ONLY=set(x for x in sys.argv[3:] if x!='--all')
OPS=[(' < ',' ≤ '),(' ≤ ',' < '),(' > ',' ≥ '),(' ≥ ',' > '),(' + ',' - '),(' - ',' + '),(' * ',' + '),(' / ',' * '),(' % ',' / '),
 (' && ',' || '),(' || ',' && '),(' ∧ ',' ∨ '),(' ∨ ',' ∧ '),('true','false'),('false','true'),(' ≠ ',' = '),(' == ',' != '),(' != ',' == '),
 ('.1','.2'),('.2','.1'),('lower','upper'),('upper','lower'),('.reverse',''),('.throw','.ub'),('.ub','.throw'),('max ','min '),('min ','max '),
 (' ++ ',None),('if ','ifnot'),('some ','none'),('.tail',''),('.dropLast',''),('.head?','.getLast?'),('.getLast?','.head?'),(' ^^^ ',' ||| '),(' &&& ',' ||| '),(' <<< ',' >>> '),(' >>> ',' <<< '),('num',None)]
def defs(path):
    s=open(path).read()
    res=[]
    for m in re.finditer(r'^(?:noncomputable |private )*def (\S+)',s,re.M):
        e=re.search(r'\n(?=(?:/--|def |noncomputable|private|structure|inductive|end |namespace|section|theorem|instance|abbrev|open |variable|@\[|/-!|mutual))',s[m.start()+1:])
        end=m.start()+1+e.start() if e else len(s)
        res.append((m.group(1),m.start(),end))
    return s,res
def muts(s,a,b,rng):
    t=s[a:b]
    k=t.find(':=')
    bars=t.find('\n  |')
    if k<0 or (0<=bars<k): k=bars
    if k<0: return []
    c=[]
    body0=a+k
    body=s[body0:b]
    for old,new in OPS:
        if old=='num':
            for m in re.finditer(r'(?<![\w.^])(\d+)(?![\w.])',body):
                v=int(m.group(1)); c.append((body0+m.start(),m.group(1),str(v+1)))
                if v>0: c.append((body0+m.start(),m.group(1),str(v-1)))
        elif old==' ++ ':
            for m in re.finditer(r' \+\+ \[[^\[\]]*\]',body): c.append((body0+m.start(),m.group(0),''))
        elif old=='if ':
            for m in re.finditer(r'\bif ([^\n]*?) then',body):
                if ':' not in m.group(1): c.append((body0+m.start(),m.group(0),'if ¬('+m.group(1)+') then'))
        elif old in('true','false','lower','upper','some '):
            for m in re.finditer(r'(?<![\w.])'+re.escape(old.strip())+r'\b',body):
                if old=='some ': continue
                c.append((body0+m.start(),old,new))
        else:
            i=body.find(old)
            while i>=0:
                ok=True
                if old in('.1','.2'): ok=not body[i+2:i+3].isdigit() and not body[i-1:i].isdigit() and body[i-1:i]!=' '
                if ok: c.append((body0+i,old,new))
                i=body.find(old,i+1)
    for m in re.finditer(r'0x[0-9a-fA-F]+',body):
        h=m.group(0); c.append((body0+m.start(),h,h[:-1]+('1' if h[-1]!='1' else '2')))
    for m in re.finditer(r'"[^"\n]*"',body): c.append((body0+m.start(),m.group(0),m.group(0)[:-1]+'x"'))
    for m in re.finditer(r'\((\w+), (\w+)\)',body):
        if m.group(1)!=m.group(2): c.append((body0+m.start(),m.group(0),'(%s, %s)'%(m.group(2),m.group(1))))
    if not c:
        for m in re.finditer(r'(?<= )(\w+) (\w+)(?=[ )\n])',body):
            if m.group(1)!=m.group(2): c.append((body0+m.start(),m.group(0),'%s %s'%(m.group(2),m.group(1))))
    rng.shuffle(c)
    return c[:12]
def setup():
    shutil.rmtree(ROOT+'/src',ignore_errors=True); os.makedirs(ROOT+'/src')
    subprocess.run('git -C /verif archive HEAD lean | tar x -C '+ROOT+'/src',shell=True,check=True)
    os.makedirs(D,exist_ok=True)
    shutil.rmtree(D+'/Verif',ignore_errors=True); shutil.copytree(ROOT+'/src/lean/Verif',D+'/Verif')
    for f in os.listdir(ROOT+'/src/lean'):
        if os.path.isfile(ROOT+'/src/lean/'+f): shutil.copy2(ROOT+'/src/lean/'+f,D+'/'+f)
    if os.path.exists('/verif/lean/lake-manifest.json'): shutil.copy2('/verif/lean/lake-manifest.json',D+'/lake-manifest.json')
    if not os.path.exists(D+'/.lake'): shutil.copytree('/verif/lean/.lake',D+'/.lake',symlinks=True)
    r=subprocess.run(['nice','lake','build'],cwd=D,capture_output=True,text=True)
    if r.returncode: print('baseline fails',(r.stdout+r.stderr)[-2000:]); sys.exit(1)
    shutil.rmtree(PR,ignore_errors=True); shutil.copytree(D+'/.lake/build',PR,symlinks=True)
def restore():
    for base,_,fs in os.walk(D+'/.lake/build'):
        rel=os.path.relpath(base,D+'/.lake/build')
        for f in fs:
            p=base+'/'+f; q=os.path.join(PR,rel,f)
            if not os.path.exists(q): os.remove(p)
            elif os.stat(p).st_mtime_ns!=os.stat(q).st_mtime_ns: shutil.copy2(q,p)
    for base,_,fs in os.walk(PR):
        rel=os.path.relpath(base,PR)
        for f in fs:
            p=os.path.join(D+'/.lake/build',rel,f)
            if not os.path.exists(p): shutil.copy2(base+'/'+f,p)
def decl(path,line):
    ls=open(path).read().split('\n')
    for i in range(min(line,len(ls))-1,-1,-1):
        m=re.match(r'(?:@\[[^\]]*\]\s*)?(?:private |noncomputable |protected )*(theorem|lemma|def|structure|example|instance|inductive|abbrev)\b\s*(\S*)',ls[i])
        if m: return 'example@%s:%d'%(os.path.basename(path),i+1) if m.group(1)=='example' else m.group(2)
    return '?'
def run(model):
    env=dict(os.environ,LEAN_NUM_THREADS='2')
    p=subprocess.Popen(['nice','timeout','3000','lake','build'],cwd=D,stdout=subprocess.PIPE,stderr=subprocess.STDOUT,text=True,env=env,start_new_session=True)
    res='survived'; failed=[]; deadline=None
    out=''
    for line in p.stdout:
        out+=line
        m=re.match(r'error: (Verif/\S+?\.lean):(\d+):',line)
        if m:
            if m.group(1)=='Verif/Model/'+model: res='invalid'; break
            d=decl(D+'/'+m.group(1),int(m.group(2)))
            if m.group(1).startswith('Verif/Model/'): res='invalid'; break
            res='killed'
            if d not in failed: failed.append(d)
        elif res=='killed' and not line.startswith(('error','warning',' ','\n')) and failed: break
        if 'exited with code 137' in line: res='inconclusive'
    try: os.killpg(p.pid,signal.SIGKILL)
    except ProcessLookupError: pass
    p.wait()
    if res=='survived' and 'Build completed successfully' not in out: res='inconclusive'
    return res,failed
if __name__=='__main__':
    done=set()
    if os.path.exists(OUT):
        for l in open(OUT):
            j=json.loads(l); done.add((j['file'],j['definition'],j['line'],j['old'],j['new']))
    setup()
    rng=random.Random(SEED)
    seen=set()
    for l in open('/verif/seeded/LOG.jsonl'):
        seen.add(json.loads(l)['definition'].split('.')[-1].split(' ')[0])
    for f in sorted(os.listdir(D+'/Verif/Model')):
        if ONLY and f not in ONLY: continue
        path=D+'/Verif/Model/'+f
        s,ds=defs(path)
        for name,a,b in ds:
            cs=muts(s,a,b,rng); got=0
            if not ALL and name.split('.')[-1] in seen: continue
            for pos,old,new in cs:
                if got>=PER: break
                line=s.count('\n',0,pos)+1
                key=(f,name,line,old,new)
                if key in done: got+=1; continue
                t=s[:pos]+new+s[pos+len(old):]
                open(path,'w').write(t)
                t0=time.time()
                res,failed=run(f)
                open(path,'w').write(s); shutil.copystat(ROOT+'/src/lean/Verif/Model/'+f,path)
                restore()
                ctx=t.split('\n')[line-1].strip()
                j=dict(file=f,definition=name,line=line,old=old,new=new,context=ctx,result=res,failed=failed[:6],seconds=round(time.time()-t0))
                with open(OUT,'a') as o: o.write(json.dumps(j,ensure_ascii=False)+'\n')
                print(res,f,name,line,repr(old),'->',repr(new),'|',ctx[:90],'|',failed[:3],j['seconds'],flush=True)
                if res!='invalid': got+=1
