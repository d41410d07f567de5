#!/usr/bin/env python3
"""Run seeded model bugs in a scratch copy. usage: mutate.py mutants.json
Each mutant: {"file": "Verif/Model/X.lean", "def": name, "old": text, "new": text, "edit": words, "claim": words,
"tightened": [...]}. Appends one line per mutant to seeded/LOG.jsonl."""
import json, sys, os, subprocess, re, shutil
ROOT = os.path.abspath(os.path.join(os.path.dirname(__file__), '..'))
S = os.environ.get('SCRATCH', '/tmp/mut')
if not os.path.exists(S):
    shutil.copytree(ROOT + '/lean', S, symlinks=True)
else:
    subprocess.run(['rsync', '-a', '--delete', '--exclude', '.lake', ROOT + '/lean/', S + '/'], check=False) if shutil.which('rsync') else None
    if not shutil.which('rsync'):
        shutil.rmtree(S + '/Verif'); shutil.copytree(ROOT + '/lean/Verif', S + '/Verif'); shutil.copy(ROOT + '/lean/Verif.lean', S + '/Verif.lean')
def build():
    p = subprocess.run(['lake', 'build'], cwd=S, capture_output=True, text=True)
    return p.returncode, p.stdout + p.stderr
rc, out = build()
if rc != 0:
    print('baseline does not build'); print(out[-3000:]); sys.exit(1)
def thm_at(f, line):
    name = None
    for i, l in enumerate(open(f), 1):
        if i > line: break
        m = re.match(r'\s*(?:@\[[^\]]*\]\s*)?(?:private\s+|noncomputable\s+)?(theorem|def|example|instance|structure|abbrev)\b\s*([^\s:({\[]*)', l)
        if m: name = m.group(2) or m.group(1)
    return name
for m in json.load(open(sys.argv[1])):
    f = os.path.join(S, m['file'])
    src = open(f).read()
    if src.count(m['old']) < 1:
        print('NOT FOUND', m['def'], m['old']); continue
    mut = src.replace(m['old'], m['new'], 1)
    if m.get('old2'): mut = mut.replace(m['old2'], m['new2'], 1)
    open(f, 'w').write(mut)
    rc, out = build()
    failed = []
    for g, line in re.findall(r'error: (Verif/[\w/]+\.lean):(\d+):\d+', out):
        t = thm_at(os.path.join(S, g), int(line))
        t = f'{os.path.basename(g)[:-5]}:{t}'
        if t not in failed: failed.append(t)
    open(f, 'w').write(src)
    rec = {"definition": m['def'], "file": m['file'], "edit": m['edit'], "claim_broken": m['claim'],
           "theorems_failed": failed, "theorems_tightened": m.get('tightened', []), "killed": rc != 0}
    if m.get('note'): rec['note'] = m['note']
    open(ROOT + '/seeded/LOG.jsonl', 'a').write(json.dumps(rec, ensure_ascii=False) + '\n')
    print(('KILLED  ' if rc else 'SURVIVED'), m['def'], '|', m['edit'], '|', failed[:4], flush=True)
