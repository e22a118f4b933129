#!/usr/bin/env python3
"""Writes AXIOMS.md: the axioms every theorem of MANIFEST.json depends on (needs a built project)."""
import json, subprocess, re, collections, os
M = json.load(open('/verif/MANIFEST.json'))
src = 'import Verif\n' + ''.join('#print axioms %s\n' % t for c in M['claims'] for t in c['theorems'])
open('/tmp/axioms_q.lean', 'w').write(src)
out = subprocess.run(['lake', 'env', 'lean', '/tmp/axioms_q.lean'], cwd='/verif/lean', capture_output=True, text=True).stdout
out = re.sub(r'\n\s+', ' ', out)
by = collections.OrderedDict()
for l in out.splitlines():
    m = re.match(r"'(.*)' depends on axioms: \[(.*)\]", l)
    if m: by.setdefault(m.group(2), []).append(m.group(1)); continue
    m = re.match(r"'(.*)' does not depend on any axioms", l)
    if m: by.setdefault('(none)', []).append(m.group(1)); continue
    print('??', l)
with open('/verif/AXIOMS.md', 'w') as f:
    f.write('# Axioms each theorem depends on\n\nGenerated by tools/axioms.py from `#print axioms`.\n')
    for k, v in by.items():
        f.write('\n## %s\n\n' % k + ', '.join('`%s`' % x for x in v) + '\n')
print({k: len(v) for k, v in by.items()})
