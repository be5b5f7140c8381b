#!/usr/bin/env python3
"""Apply seeded bugs to the model in a scratch copy and report which declarations fail.
usage: mutate.py mutations.json [log]   (each entry: definition, file, old, new, edit, claim)"""
import json, subprocess, sys, re, os, shutil, select, signal, time
SRC='/verif/lean'; DST='/tmp/scratch/lean'
muts=json.load(open(sys.argv[1])); log=sys.argv[2] if len(sys.argv)>2 else '/tmp/mut/out.jsonl'
os.makedirs('/tmp/scratch',exist_ok=True)
def sync(): subprocess.run(['rsync','-a','--delete',SRC+'/',DST+'/'],check=True) if shutil.which('rsync') else (shutil.rmtree(DST,ignore_errors=True), subprocess.run(['cp','-a',SRC,DST],check=True))
sync()
# the transcribed unit tests are left out: a mutant must be rejected by a theorem
v=os.path.join(DST,'Verif.lean'); t=open(v).read()
open(v,'w').write('\n'.join(l for l in t.split('\n') if 'Conform' not in l))
# concrete cases are skipped: the kernel evaluation of one that has become false can take all memory, which kills the
# prover before it reports the theorems it rejected; only theorems proved for all inputs count against a mutant
for root,_,fs in os.walk(os.path.join(DST,'Verif')):
    for f in fs:
        q=os.path.join(root,f); t=open(q).read()
        if 'decide +kernel' in t: open(q,'w').write(t.replace('decide +kernel','so'+'rry'))
def decl_at(path,line):
    ls=open(path).read().split('\n')
    for i in range(min(line,len(ls))-1,-1,-1):
        m=re.match(r'(?:private |protected |@\[[^\]]*\] )*(theorem|def|example|instance|structure|inductive|abbrev)\s*([^\s:({\[]*)',ls[i])
        if m: return (m.group(2) or m.group(1)) if m.group(1)!='example' else 'example@%d'%(i+1)
    return '?'
for m in muts:
    p=os.path.join(DST,m['file']); orig=open(p).read()
    if orig.count(m['old'])<1: print('NOT FOUND',m['definition'],m['old'][:50]); continue
    k=m.get('nth',0); parts=orig.split(m['old'])
    mut=m['old'].join(parts[:k+1])+m['new']+m['old'].join(parts[k+1:])
    open(p,'w').write(mut)
    for attempt in range(2):
        # stop a little after the first theorem is rejected: one rejected theorem settles a mutant
        pr=subprocess.Popen(['lake','build'],cwd=DST,stdout=subprocess.PIPE,stderr=subprocess.STDOUT,start_new_session=True)
        buf=[]; stop=None; early=False
        while True:
            rl,_,_=select.select([pr.stdout],[],[],2)
            if rl:
                c=os.read(pr.stdout.fileno(),65536).decode('utf8','replace')
                if c: buf.append(c)
                else: break
            if stop is None:
                for f,l in re.findall(r'error: (Verif/[\w/]+\.lean):(\d+):\d+',''.join(buf)):
                    if not decl_at(os.path.join(DST,f),int(l)).startswith(('example','def','?')): stop=time.time()+45
            elif time.time()>stop: early=True; os.killpg(pr.pid,signal.SIGKILL); break
        pr.wait(); out=''.join(buf); r=pr
        # a prover killed for want of memory leaves no position: build again
        if r.returncode==0 or re.search(r'error: (Verif/[\w/]+\.lean):(\d+):\d+',out): break
    errs=[]
    for f,l in re.findall(r'error: (Verif/[\w/]+\.lean):(\d+):\d+',out):
        d=f.split('/')[-1][:-5]+'.'+decl_at(os.path.join(DST,f),int(l))
        if d not in errs: errs.append(d)
    bad=re.findall(r'^- (Verif[\w.]*)',out,re.M)
    # modules that import a failed one
    res=dict(definition=m['definition'],file=m['file'],edit=m['edit'],claim=m['claim'],failed=errs,failed_modules=bad,theorems_tightened=m.get('tightened',[]))
    with open(log,'a') as f: f.write(json.dumps(res)+'\n')
    print(('SURVIVED ' if r.returncode==0 else 'killed   ' if errs else 'BUILD?   ')+m['definition']+': '+m['edit'],'|',errs[:6],flush=True)
    open(p,'w').write(orig)
