#!/usr/bin/env python3
"""Mutation runner.  Usage: mutate.py mutants.json results.jsonl
Works in /tmp/scratch/lean (a copy of /verif/lean with its build products), applies one edit to the model,
rebuilds, and reports the declarations that no longer check and the modules that are blocked behind them."""
import json, os, re, subprocess, sys, shutil, time
SRC, DST = '/verif/lean', '/tmp/scratch/lean'
DECL = re.compile(r'^\s*(?:@\[[^\]]*\]\s*)*(?:private |protected |noncomputable )*(theorem|lemma|def|example|instance|structure|abbrev)\b\s*([^\s:({\[]*)')
def sync():
    base = '/tmp/scratch/base'          # frozen snapshot of /verif/lean taken when the run starts
    subprocess.run(['rm', '-rf', DST], check=True)
    subprocess.run(['cp', '-a', base, DST], check=True)
def snapshot():
    os.makedirs('/tmp/scratch', exist_ok=True)
    subprocess.run(['rm', '-rf', '/tmp/scratch/base'], check=True)
    subprocess.run(['cp', '-a', SRC, '/tmp/scratch/base'], check=True)
def decl_at(path, line):
    try: ls = open(path).read().split('\n')
    except OSError: return '?'
    for k in range(min(line, len(ls)) - 1, -1, -1):
        m = DECL.match(ls[k])
        if m: return (m.group(2) or m.group(1) + '@%d' % (k + 1))
    return '?'
def run(m):
    path = os.path.join(DST, m['file']); src = open(path).read()
    if src.count(m['old']) != m.get('count', 1):
        return dict(error='pattern found %d times' % src.count(m['old']))
    open(path, 'w').write(src.replace(m['old'], m['new']))
    t = time.time()
    try:
        r = subprocess.run(['lake', 'build'], cwd=DST, capture_output=True, text=True, timeout=2400)
        out = r.stdout + r.stderr
    except subprocess.TimeoutExpired as e:
        out = 'error: timeout'
    failed, mods = [], []
    for x in re.finditer(r'^error: (Verif/\S+\.lean):(\d+):\d+', out, re.M):
        d = decl_at(os.path.join(DST, x.group(1)), int(x.group(2)))
        k = '%s (%s)' % (d, x.group(1).replace('Verif/', '').replace('.lean', ''))
        if k not in failed: failed.append(k)
    for x in re.finditer(r'^- (Verif\S*)', out, re.M): mods.append(x.group(1))
    open(path, 'w').write(src)
    return dict(failed=failed, modules=mods, ok=('Build completed successfully' in out), secs=round(time.time() - t))
if __name__ == '__main__':
    ms = json.load(open(sys.argv[1])); done = set()
    if os.path.exists(sys.argv[2]):
        done = {json.loads(l)['id'] for l in open(sys.argv[2])}
    snapshot()
    for m in ms:
        if m['id'] in done: continue
        sync()
        r = run(m)
        with open(sys.argv[2], 'a') as f: f.write(json.dumps({**m, **r}) + '\n')
        print(m['id'], r, flush=True)
