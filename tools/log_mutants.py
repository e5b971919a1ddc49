#!/usr/bin/env python3
"""log_mutants.py results.jsonl [tight.json] : append to seeded/LOG.jsonl one line per mutant, naming the declarations that
stopped checking and the property theorems that rest on them (dependency graph from tools/Deps.lean.txt)."""
import json, os, subprocess, sys, collections, re
V='/verif'
if not os.environ.get('NODEPS'):
    os.makedirs('/tmp/scratch',exist_ok=True)
    subprocess.run(['cp',V+'/tools/Deps.lean.txt','/tmp/scratch/Deps.lean'],check=True)
    subprocess.run(['lake','env','lean','/tmp/scratch/Deps.lean'],cwd=V+'/lean',check=True)
rev=collections.defaultdict(set); names=set()
for l in open('/tmp/scratch/deps.tsv'):
    n,_,u=l.rstrip('\n').partition('\t'); names.add(n)
    for x in u.split(): rev[x].add(n)
def dependents(n):
    seen={n}; st=[n]
    while st:
        for y in rev[st.pop()]:
            if y not in seen: seen.add(y); st.append(y)
    return seen
tight=json.load(open(sys.argv[2])) if len(sys.argv)>2 else {}
seen={json.loads(l)['id'] for l in open(V+'/seeded/LOG.jsonl')} if os.path.exists(V+'/seeded/LOG.jsonl') else set()
with open(V+'/seeded/LOG.jsonl','a') as f:
    for l in open(sys.argv[1]):
        r=json.loads(l)
        if r['id'] in seen: continue
        if 'error' in r: print('skipped',r['id'],r['error']); continue
        short=[x.split(' ')[0] for x in r['failed']]
        props=set()
        for s in short:
            for n in names:
                if n.endswith('.'+s):
                    for d in dependents(n):
                        m=re.match(r'PyV\.Props\.(C\d+_\w+)$',d)
                        if m: props.add(m.group(1))
        direct=[s for s in short if re.match(r'C\d+_',s)]
        rec=dict(id=r['id'],definition=r['defn'],file=r['file'],edit=r['edit'],old=r['old'],new=r['new'],claim_broken=r['claim'],
                 theorems_failed=r['failed'],property_theorems_blocked=sorted(props),
                 survived=bool(r['ok']),tightened=tight.get(r['id'],[]))
        f.write(json.dumps(rec,ensure_ascii=False)+'\n')
        if r['ok']: print('SURVIVOR',r['id'],r['defn'],r['edit'],'tightened:',tight.get(r['id']))
        elif not props: print('no property theorem:',r['id'],r['defn'],r['edit'],r['failed'])
