#!/usr/bin/env python3
"""As mutate.py, but the build is stopped GRACE seconds after the first proof fails (faster: the list of failed
theorems is then not complete).  usage: mutate2.py batch.json out.jsonl [--nosnap]"""
import json, os, re, signal, subprocess, sys, threading, time
batch = json.load(open(sys.argv[1])); out = sys.argv[2]
SNAP, W, GRACE = '/tmp/sc0', '/tmp/sc', 20
def sh(c): return subprocess.run(c, shell=True, capture_output=True, text=True)
if '--nosnap' not in sys.argv:
    sh(f'rm -rf {SNAP}; mkdir -p {SNAP}; cp -r -p /verif/lean/. {SNAP}/')
    print(sh(f'cd {SNAP} && lake build').stdout[-200:], flush=True)
def decl_at(path, line):
    name = '?'
    for i, l in enumerate(open(path), 1):
        if i > line: break
        m = re.match(r'\s*(?:@\[.*\]\s*)?(?:private |protected |noncomputable )*(theorem|lemma|def|example|instance|abbrev|structure)\s*(\S*)', l)
        if m: name = m.group(2) or f'{m.group(1)}@{i}'
    return name
done = set()
if os.path.exists(out):
    done = {(e['definition'], e['edit']) for e in map(json.loads, open(out))}
for b in batch:
    if (b['definition'], b['edit']) in done: continue
    sh(f'rm -rf {W}; cp -r -p {SNAP} {W}')
    p = f"{W}/Verif/{b['file']}"
    s = open(p).read()
    if s.count(b['old']) != 1:
        print('BAD', b['definition'], b['edit'], s.count(b['old']), flush=True); continue
    open(p, 'w').write(s.replace(b['old'], b['new']))
    t0 = time.time()
    pr = subprocess.Popen('exec timeout 1500 lake build 2>&1', shell=True, cwd=W, stdout=subprocess.PIPE, text=True, start_new_session=True)
    lines = []; timer = None
    def kill():
        try: os.killpg(pr.pid, signal.SIGKILL)
        except ProcessLookupError: pass
    for l in pr.stdout:
        lines.append(l)
        if re.match(r'error: Verif/', l) and timer is None:
            timer = threading.Timer(GRACE, kill); timer.start()
    pr.wait()
    if timer: timer.cancel()
    kill(); sh("pkill -KILL -f '/tmp/sc/'")
    r = ''.join(lines)
    failed = []
    for m in re.finditer(r'error: (Verif/\S+?\.lean):(\d+):\d+', r):
        d = decl_at(f'{W}/{m.group(1)}', int(m.group(2)))
        if (m.group(1), d) not in failed: failed.append((m.group(1), d))
    mods = {f for f, _ in failed}
    allf = sh(f'cd {W} && find Verif -name "*.lean"').stdout.split()
    imp = {f: [x.replace('.', '/') + '.lean' for x in re.findall(r'^import (Verif\S*)', open(f'{W}/{f}').read(), re.M)] for f in allf}
    ch = True; bad = set(mods)
    while ch:
        ch = False
        for f in allf:
            if f not in bad and any(x in bad for x in imp[f]): bad.add(f); ch = True
    blocked = sorted(f for f in bad - mods if '/Props/' in f)
    if any(f.startswith('Verif/Model/') for f in mods):
        print('INVALID (does not type check)', b['definition'], b['edit'], flush=True); continue
    e = dict(definition=b['definition'], edit=b['edit'], claim_broken=b['claim'],
             theorems_failed=[d for f, d in failed], dependents_not_built=blocked, theorems_tightened=b.get('tightened', []))
    print(int(time.time() - t0), json.dumps(e), flush=True)
    open(out, 'a').write(json.dumps(e) + '\n')
