#!/usr/bin/env python3
"""Regenerates MANIFEST.json from the theorems named Cxx_... and tools/status.json."""
import re, json, glob
props = [json.loads(l) for l in open('/verif/properties.jsonl')]
st = json.load(open('/verif/tools/status.json'))
ths = {}
for f in sorted(glob.glob('/verif/lean/Verif/**/*.lean', recursive=True)):
    for l in open(f):
        m = re.match(r'(?:protected )?theorem (C\d\d)_(\w+)', l)
        if m: ths.setdefault(m.group(1), []).append('TL.%s_%s' % m.groups())
claims = []
for p in props:
    i = p['id']
    t = ths.get(i, [])
    if not t: print('no theorem for', i); continue
    s = st.get(i, {})
    status = s.get('status', 'partial' if any(x.endswith('_partial') for x in t) else 'proved')
    claims.append({'property': i, 'status': status, 'theorems': t, 'note': s.get('note', '')})
json.dump({'claims': claims}, open('/verif/MANIFEST.json', 'w'), indent=1, ensure_ascii=False)
print(len(claims), 'claims', sum(len(c['theorems']) for c in claims), 'theorems')
