#!/usr/bin/env python3
"""Check (and with --fix correct) the citations `file.rs:a-b `name`` of the model against the items of /repo/src."""
import re,glob,os,sys
root='/repo/src'; fix='--fix' in sys.argv
files={}
for p in glob.glob(root+'/**/*.rs',recursive=True): files.setdefault(os.path.basename(p),[]).append(p)
def items(p):
    L=open(p).read().split('\n'); out=[]
    for i,x in enumerate(L):
        m=re.match(r'\s*(?:pub(?:\([^)]*\))? )?(?:async |const )?(fn|struct|enum|type|trait|const|static) (\w+)',x)
        if not m: continue
        d=0; j=i; seen=False
        while j<len(L):
            s=re.sub(r'"(?:\\.|[^"\\])*"|\'(?:\\.|[^\'\\])\'|//.*','',L[j])
            for ch in s:
                if ch=='{': d+=1; seen=True
                elif ch=='}': d-=1
            if (seen and d==0) or (not seen and s.rstrip().endswith(';')): break
            j+=1
        out.append((m.group(2),i+1,j+1))
    return out
IT={p:items(p) for ps in files.values() for p in ps}
bad=tot=named=0
for f in sorted(set(glob.glob('Verif/**/*.lean',recursive=True))):
    t=open(f).read(); res=[]; pos=0
    for m in re.finditer(r'([\w/]+\.rs):(\d+)(?:[-–](\d+))?(?![\d,])(?!, \d)',t):
        tot+=1
        name=m.group(1); a=int(m.group(2)); b=int(m.group(3) or a)
        c=[p for p in files.get(os.path.basename(name),[]) if p.endswith('/'+name)]
        ln=t.count('\n',0,m.start())+1
        after=t[m.end():m.end()+90].split('\n')[0]
        q=re.match(r"\s*`(?:struct |enum |fn |const |type )?([\w]+(?:::[\w]+)*)`",after)
        if not q or not c: continue
        named+=1
        nm=q.group(1).split('::')[-1]
        cand=[(abs(s-a)+abs(e-b),s,e,p) for p in c for (n,s,e) in IT[p] if n==nm]
        if not cand: print('NOITEM',f,ln,m.group(0),nm); bad+=1; continue
        cand.sort(); _,s,e,p=cand[0]
        L=open(p).read().split('\n')
        # the citation may include doc comments and attributes before the item
        s0=s
        while s0>1 and re.match(r'\s*(///|#\[)',L[s0-2]): s0-=1
        if not (s0<=a<=s and b==e):
            bad+=1; print(f,ln,m.group(0),nm,'->',(s,e) if s!=e else s)
            if fix:
                res.append((m.start(),m.end(),f'{name}:{s}-{e}' if s!=e else f'{name}:{s}'))
    if fix and res:
        for s,e,r in reversed(res): t=t[:s]+r+t[e:]
        open(f,'w').write(t)
print(tot,named,bad)
