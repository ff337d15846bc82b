#!/usr/bin/env python3
"""Check that citations of the form  file.go:a-b `Name`  really cover the declaration of Name."""
import re,glob,os,sys
src={}
for f in glob.glob('/repo/**/*.go',recursive=True):
    src.setdefault(os.path.basename(f),[]).append(open(f).read().split('\n'))
bad=0;n=0
for f in sorted(glob.glob('/verif/lean/Verif/**/*.lean',recursive=True)):
    t=open(f).read()
    for m in re.finditer(r'([a-z_0-9]+\.go):(\d+)(?:-(\d+))?\s+`([A-Za-z]+)`',t):
        fn,a,b,name=m.group(1),int(m.group(2)),int(m.group(3) or m.group(2)),m.group(4)
        if fn not in src: print(f,'no such file',fn); bad+=1; continue
        n+=1; ok=False; best=None
        for ls in src[fn]:
            for i,l in enumerate(ls,1):
                if re.search(r'(func|type)\b.*\b'+name+r'\b\s*[\[(\s]',l) and l.startswith(('func','type')) and re.search(r'^(func\s*(\([^)]*\)\s*)?|type\s+)'+name+r'\b',l):
                    j=i
                    while j<len(ls) and not (ls[j-1].rstrip()=='}' or (j==i and ls[j-1].rstrip().endswith('}'))): j+=1
                    best=(i,j)
                    if a==i and b==j: ok=True
        if best and not ok:
            print(os.path.relpath(f,'/verif/lean'),m.group(0).replace('\n',' '),'-> actual',best); bad+=1
print(n,'checked',bad,'off')
