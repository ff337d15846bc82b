#!/usr/bin/env python3
"""Writes MANIFEST.json from tools/claims.txt.
claims.txt: blocks  `Cnn status | Namespace | thm1 thm2 ... | note`  (names are prefixed by Namespace
unless they contain a dot)."""
import json,os
root=os.path.dirname(os.path.dirname(os.path.abspath(__file__)))
claims=[]
for line in open(os.path.join(root,'tools/claims.txt')):
    line=line.strip()
    if not line or line.startswith('#'): continue
    head,ns,thms,note=[x.strip() for x in line.split('|',3)]
    pid,status=head.split()
    names=[t if t.startswith('Gds.') else ns+'.'+t for t in thms.split()]
    claims.append(dict(property=pid,status=status,theorems=names,note=note))
json.dump({"claims":claims},open(os.path.join(root,'MANIFEST.json'),'w'),indent=1)
print(len(claims),'claims')
