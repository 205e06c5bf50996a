#!/usr/bin/env python3
"""Regenerate MANIFEST.json from the theorem names in lean/Verif/Props.

A theorem named Cnn_... belongs to property Cnn.  A property is "proved" when
it has at least one theorem and no entry in PARTIAL; notes come from NOTES.
"""
import json, os, re, glob
root = os.path.join(os.path.dirname(os.path.abspath(__file__)), '..')
exec(open(os.path.join(root, 'tools', 'notes.py')).read())
thms = {}
for f in sorted(glob.glob(os.path.join(root, 'lean', 'Verif', '**', '*.lean'), recursive=True)):
    ns = []
    for line in open(f):
        m = re.match(r'namespace (\S+)', line)
        if m: ns.append(m.group(1))
        m = re.match(r'end (\S+)', line)
        if m and ns and ns[-1] == m.group(1): ns.pop()
        m = re.match(r'(?:@\[[^\]]*\]\s*)?theorem (C\d{2,3})(?!\d)(\w*)', line)
        if m:
            thms.setdefault(m.group(1), []).append('.'.join(ns + [m.group(1) + m.group(2)]))
claims = []
for line in open(os.path.join(root, 'properties.jsonl')):
    pid = json.loads(line)['id']
    if pid not in thms: continue
    claims.append({'property': pid,
                   'status': 'partial' if pid in PARTIAL else 'proved',
                   'theorems': thms[pid],
                   'note': PARTIAL.get(pid) or NOTES.get(pid, '')})
json.dump({'claims': claims}, open(os.path.join(root, 'MANIFEST.json'), 'w'), indent=1)
print(len(claims), 'claims')
