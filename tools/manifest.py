#!/usr/bin/env python3
"""Regenerate MANIFEST.json: theorems named Cnn_* under lean/Verif/Props are attached to property Cnn.
Status/notes come from tools/status.json ({"C01": ["proved", "note"], ...})."""
import re, json, glob, os
root = os.path.join(os.path.dirname(__file__), '..')
thms = {}
for f in sorted(glob.glob(os.path.join(root, 'lean/Verif/Props/**/*.lean'), recursive=True)):
    ns = []
    for line in open(f):
        m = re.match(r'\s*namespace\s+(\S+)', line)
        if m: ns.append(m.group(1)); continue
        m = re.match(r'\s*section\b\s*(\S*)', line)
        if m and not line.lstrip().startswith('section,'): ns.append(None); continue
        m = re.match(r'\s*end\b\s*(\S*)', line)
        if m and ns: ns.pop(); continue
        m = re.match(r'\s*(?:@\[[^\]]*\]\s*)?(?:private\s+)?theorem\s+((?:\w+\.)*(C\d\d)_\w+)', line)
        if m:
            full = '.'.join([n for n in ns if n] + [m.group(1)])
            thms.setdefault(m.group(2), []).append(full)
status = json.load(open(os.path.join(root, 'tools/status.json')))
props = [json.loads(l)['id'] for l in open(os.path.join(root, 'properties.jsonl'))]
claims = []
for p in props:
    if p not in status: continue
    st, note = status[p]
    claims.append({"property": p, "status": st, "theorems": thms.get(p, []), "note": note})
json.dump({"claims": claims}, open(os.path.join(root, 'MANIFEST.json'), 'w'), indent=1, ensure_ascii=False)
print(len(claims), 'claims', sum(len(c['theorems']) for c in claims), 'theorems; missing', [p for p in props if p not in status],
      'no theorems', [c['property'] for c in claims if not c['theorems']])
