#!/usr/bin/env python3
"""Apply one seeded bug to a scratch copy of the Lean project, rebuild and log which theorems fail.

usage: mutate.py SPEC.json   (a list of {"file","def","old","new","claim","tightened"?})
The scratch copy lives in /tmp/mut; /verif is only read, except for seeded/LOG.jsonl.
"""
import json, os, re, subprocess, sys

SRC = '/verif/lean'
DST = '/tmp/mut/lean'
LOG = '/verif/seeded/LOG.jsonl'

def sync():
    """Scratch copy of the last commit, with the compiled files of the working tree to start from."""
    os.makedirs('/tmp/mut', exist_ok=True)
    subprocess.run(f'rm -rf {DST} && mkdir -p {DST} && git -C /verif archive HEAD lean | tar -x -C /tmp/mut && cp -a {SRC}/.lake {DST}/.lake',
                   shell=True, check=True)

def enclosing(path, line):
    name = None
    for i, l in enumerate(open(os.path.join(DST, path)).read().split('\n'), 1):
        m = re.match(r'\s*(?:@\[[^\]]*\]\s*)?(?:private\s+)?(theorem|lemma|def|example|instance|inductive|structure)\s*([^\s:({\[]*)', l)
        if m:
            name = m.group(2) or (m.group(1) + f'@{os.path.basename(path)}')
            if m.group(1) == 'example': name = f'example@{os.path.basename(path)}:{i}'
        if i >= line: break
    return name

def run(m):
    p = os.path.join(DST, m['file'])
    s = open(p).read()
    if s.count(m['old']) < 1:
        print('PATTERN NOT FOUND', m['file'], repr(m['old'])[:80]); return
    orig = s
    s = s.replace(m['old'], m['new'], 1)
    open(p, 'w').write(s)
    try:
        r = subprocess.run(['nice', 'lake', 'build'], cwd=DST, capture_output=True, text=True, timeout=1500)
        out = r.stdout + r.stderr
    except subprocess.TimeoutExpired as e:
        subprocess.run(['pkill', '-f', '/tmp/mut/lean'])
        out = (e.stdout or b'').decode() + '\nerror: TIMEOUT'
    failed = []
    for mm in re.finditer(r'error: (Verif\S*\.lean):(\d+):\d+', out):
        n = enclosing(mm.group(1), int(mm.group(2)))
        if n and n not in failed: failed.append(n)
    for mm in re.finditer(r'error: TIMEOUT', out): failed.append('TIMEOUT')
    rec = {'definition': m['def'], 'file': 'lean/' + m['file'], 'edit': f"{m['old'].strip()!r} -> {m['new'].strip()!r}", 'breaks': m['claim'],
           'failed': failed, 'tightened': m.get('tightened', [])}
    print(m['def'], '=>', failed if failed else 'SURVIVED', flush=True)
    if not m.get('nolog'):
        with open(LOG, 'a') as f: f.write(json.dumps(rec) + '\n')
    open(p, 'w').write(orig)

sync()
for m in json.load(open(sys.argv[1])):
    run(m)
