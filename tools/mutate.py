#!/usr/bin/env python3
"""Mutation testing of the model.  usage: mutate.py mutations.json
Each mutation: {"file","def","old","new","edit","claim"} (claim = property id and English).  Works in /tmp/scratch, a copy of
/verif/lean; appends one line per mutation to /verif/seeded/LOG.jsonl.  A mutation nothing notices is printed as SURVIVED
and is logged by hand after the theorem has been tightened."""
import sys, json, subprocess, re, os
S=os.environ.get('SCRATCH','/tmp/scratch')
muts=json.load(open(sys.argv[1]))
man=json.load(open('/verif/MANIFEST.json'))
thm_claim={}
for c in man['claims']:
    for t in c['theorems']: thm_claim.setdefault(t,[]).append(c['property'])
def theorem_at(path,line):
    ls=open(path).read().split('\n'); ns=''
    for i in range(line-1,-1,-1):
        m=re.match(r'(?:@\[[^\]]*\]\s*)?(?:private |noncomputable |protected )*(theorem|lemma|def|example|instance|structure|inductive)\s*([^\s:({\[]*)',ls[i])
        if m: return (m.group(2) or m.group(1)) if m.group(1)!='example' else 'example@%d'%(i+1)
    return '?'
def targets(f):
    # all modules of the mutated component
    if '/' not in f: return ['Verif.'+f[:-5]]
    c=f.split('/')[0]
    if c in ('BPlus','RBTree','SkipList'): return ['Verif.Reinit']+sorted('Verif.%s.%s'%(c,x[:-5]) for x in os.listdir(os.path.join(S,'Verif',c)) if x.endswith('.lean'))
    return sorted('Verif.%s.%s'%(c,x[:-5]) for x in os.listdir(os.path.join(S,'Verif',c)) if x.endswith('.lean'))
for mu in muts:
    p=os.path.join(S,'Verif',mu['file'])
    orig=open(p).read()
    if orig.count(mu['old'])!=1 and not mu.get('nth'):
        print('BAD MATCH',orig.count(mu['old']),mu['file'],mu['def'],repr(mu['old'])); continue
    if mu.get('nth'):
        parts=orig.split(mu['old']); n=mu['nth']
        new=mu['old'].join(parts[:n])+mu['new']+mu['old'].join(parts[n:])
    else: new=orig.replace(mu['old'],mu['new'])
    open(p,'w').write(new)
    try:
        r=subprocess.run(['lake','build']+targets(mu['file']),cwd=S,capture_output=True,text=True,timeout=1500)
        out=r.stdout+r.stderr
    except subprocess.TimeoutExpired as e:
        out='TIMEOUT'; r=None
    errs=re.findall(r'error: (Verif/\S+?\.lean):(\d+):\d+: (.*)',out)
    failed=[]
    modelbroken=False
    for f,l,msg in errs:
        t=f.replace('Verif/','').replace('.lean','').replace('/','.')+':'+theorem_at(os.path.join(S,f),int(l))
        if t not in failed: failed.append(t)
    open(p,'w').write(orig)
    own=[x for x in failed if x.split(':')[0]==mu['file'][:-5].replace('/','.')]
    if r is not None and r.returncode==0:
        print('SURVIVED',mu['file'],mu['def'],'|',mu['edit'],'|',mu['claim'],flush=True)
        json.dump(mu,open('/tmp/mut/survivors.jsonl','a')); open('/tmp/mut/survivors.jsonl','a').write('\n')
        continue
    if own: print('MODEL DOES NOT COMPILE?',mu['def'],own,out[:600],flush=True)
    print('killed',mu['def'],'|',mu['edit'],'|',failed[:6],flush=True)
    open('/verif/seeded/LOG.jsonl','a').write(json.dumps({"definition":mu['file']+': '+mu['def'],"edit":mu['edit'],"claim_broken":mu['claim'],"theorems_failed":failed,"theorems_tightened":mu.get('tightened',[])})+'\n')
