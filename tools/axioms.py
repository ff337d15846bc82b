#!/usr/bin/env python3
"""Writes AXIOMS.md: the axioms every theorem of MANIFEST.json depends on, as printed by Lean."""
import json,os,re,subprocess,tempfile
root=os.path.dirname(os.path.dirname(os.path.abspath(__file__)))
man=json.load(open(os.path.join(root,'MANIFEST.json')))
names=[]
for c in man['claims']:
    for t in c['theorems']:
        if t not in names: names.append(t)
src="import Verif\n"+"".join(f"#print axioms {n}\n" for n in names)
f=tempfile.NamedTemporaryFile('w',suffix='.lean',delete=False);f.write(src);f.close()
out=subprocess.run(['lake','env','lean',f.name],cwd=os.path.join(root,'lean'),capture_output=True,text=True).stdout
ax={}
for m in re.finditer(r"'([^']+)' (does not depend on any axioms|depends on axioms: \[([^\]]*)\])",out):
    ax[m.group(1)]=' '.join((m.group(3) or '').replace(',',' ').split()) or '(none)'
missing=[n for n in names if n not in ax]
assert not missing,missing
groups={}
for n in names: groups.setdefault(ax[n],[]).append(n)
with open(os.path.join(root,'AXIOMS.md'),'w') as g:
    g.write("# Axioms of every theorem in MANIFEST.json\n\nGenerated by tools/axioms.py from `#print axioms`.\n")
    for k in sorted(groups):
        g.write(f"\n## {k} ({len(groups[k])} theorems)\n\n"+"\n".join(groups[k])+"\n")
print(len(names),{k:len(v) for k,v in groups.items()})
