import json,re,glob,sys
props=[json.loads(l) for l in open('properties.jsonl')]
man={c['property']:c for c in json.load(open('MANIFEST.json'))['claims']}
src={}
for f in glob.glob('lean/Verif/Props/*.lean'):
    s=open(f).read()
    for m in re.finditer(r'((?:/--(?:(?!-/)[\s\S])*-/\s*)?)theorem (C\d+\w*)([\s\S]*?)(?::= by|:=\n|:= )(?=\s)',s):
        src[m.group(2)]=(f.split('/')[-1],m.group(1),m.group(3))
a,b=int(sys.argv[1]),int(sys.argv[2])
for p in props:
    n=int(p['id'][1:])
    if not a<=n<=b: continue
    c=man[p['id']]
    print('='*100); print(p['id'],c['status'],'|',p['title']); print('  S:',p['statement']); print('  Q:',p['quantifier'])
    if c.get('note') and c['status']!='proved': print('  NOTE:',c['note'])
    for t in c['theorems']:
        t=t.split('.')[-1]
        if t in src: print('--',src[t][0],t,re.sub(r'\n\s*','\n     ',src[t][2]))
