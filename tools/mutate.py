#!/usr/bin/env python3
"""Seeded-bug harness.  usage: mutate.py batch.json
Snapshots /verif/lean in /tmp/sc0, and for every entry {file,old,new,definition,edit,claim} applies the edit in
/tmp/sc, rebuilds there, and prints the declarations whose proofs fail.  /verif is never touched, except that one
JSON line per attempt is appended to the output file given as second argument."""
import json, os, re, subprocess, sys
batch = json.load(open(sys.argv[1])); out = sys.argv[2]
SNAP, W = '/tmp/sc0', '/tmp/sc'
def sh(c): return subprocess.run(c, shell=True, capture_output=True, text=True)
if '--nosnap' not in sys.argv:
    sh(f'mkdir -p {SNAP}; cp -r --remove-destination /verif/lean/. {SNAP}/')
    print(sh(f'cd {SNAP} && lake build').stdout[-200:])
def decl_at(path, line):
    name = '?'
    for i, l in enumerate(open(path), 1):
        if i > line: break
        m = re.match(r'\s*(?:@\[.*\]\s*)?(?:private |protected |noncomputable )*(theorem|lemma|def|example|instance|abbrev|structure)\s*(\S*)', l)
        if m: name = m.group(2) or f'{m.group(1)}@{i}'
    return name
for b in batch:
    sh(f'rm -rf {W}; cp -r -p {SNAP} {W}')
    p = f"{W}/Verif/{b['file']}"
    s = open(p).read()
    if s.count(b['old']) != 1:
        print('BAD', b['definition'], s.count(b['old'])); continue
    open(p, 'w').write(s.replace(b['old'], b['new']))
    r = sh(f'cd {W} && timeout 1500 lake build 2>&1').stdout
    failed = []
    for m in re.finditer(r'error: (Verif/\S+?\.lean):(\d+):\d+', r):
        d = decl_at(f'{W}/{m.group(1)}', int(m.group(2)))
        if (m.group(1), d) not in failed: failed.append((m.group(1), d))
    mods = {f for f, _ in failed}
    built = r.count('Built') ; 
    # downstream modules blocked
    blocked = set()
    allf = sh(f'cd {W} && find Verif -name "*.lean"').stdout.split()
    imp = {f: [x.replace('.', '/') + '.lean' for x in re.findall(r'^import (Verif\S*)', open(f'{W}/{f}').read(), re.M)] for f in allf}
    ch = True
    bad = set(mods)
    while ch:
        ch = False
        for f in allf:
            if f not in bad and any(x in bad for x in imp[f]): bad.add(f); ch = True
    blocked = sorted(f for f in bad - mods if '/Props/' in f)
    e = dict(definition=b['definition'], edit=b['edit'], claim_broken=b['claim'],
             theorems_failed=[d for f, d in failed], dependents_not_built=blocked,
             theorems_tightened=b.get('tightened', []))
    print(json.dumps(e)); sys.stdout.flush()
    open(out, 'a').write(json.dumps(e) + '\n')
