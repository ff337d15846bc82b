#!/usr/bin/env python3
"""Which functions of /repo are cited (file.go:a-b) by a comment of the model?  Prints the uncited ones; --md prints a table."""
import os,re,sys,collections
R='/repo'; L=os.path.join(os.path.dirname(__file__),'..','lean','Verif')
funcs=[]
for d,_,fs in os.walk(R):
    for f in fs:
        if f.endswith('.go') and not f.endswith('_test.go'):
            p=os.path.join(d,f); ls=open(p).read().split('\n')
            i=0
            while i<len(ls):
                m=re.match(r'func\s+(\([^)]*\)\s*)?(\w+)',ls[i])
                if m:
                    j=i
                    if not ls[i].rstrip().endswith('}'):
                        while j<len(ls) and not ls[j].startswith('}'): j+=1
                    funcs.append((os.path.relpath(p,R),m.group(2),i+1,j+1,(m.group(1) or '').strip())); i=j
                i+=1
cites=collections.defaultdict(set)
for d,_,fs in os.walk(L):
    for f in fs:
        if f.endswith('.lean'):
            t=open(os.path.join(d,f)).read()
            for m in re.finditer(r'([\w./]*\w+\.go):?\s?((?:\d+(?:-\d+)?(?:,\s*|\s+and\s+)?)+)',t):
                for r in re.finditer(r'(\d+)(?:-(\d+))?',m.group(2)):
                    a=int(r.group(1)); b=int(r.group(2) or a)
                    cites[m.group(1)].update(range(a,b+1))
comp={'collections/':''}
unc=[]
for (p,n,a,b,rcv) in funcs:
    ok=any(p.endswith(c) and (p==c or p.endswith('/'+c)) and (set(range(a,b+1))&s) for c,s in cites.items())
    if not ok: unc.append((p,n,a,b,rcv))
print(len(funcs),'functions,',len(unc),'not cited')
for x in unc: print('  %s:%d-%d %s %s'%(x[0],x[2],x[3],x[4],x[1]))
