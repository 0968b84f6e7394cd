#!/usr/bin/env python3
"""Regenerate MANIFEST.json from the property theorems in lean/Verif/Props (names Cnn_...).

A property is 'partial' when one of its theorems ends in _partial, or states that the property is
false of the code (_refuted, _wrong, _fails); NOTES gives the reason.
"""
import re, json, glob, os
here = os.path.dirname(os.path.dirname(os.path.abspath(__file__)))
NOTES = json.load(open(os.path.join(here, 'tools', 'notes.json')))
props = [json.loads(l)['id'] for l in open(os.path.join(here, 'properties.jsonl'))]
thms = {}
for f in sorted(glob.glob(os.path.join(here, 'lean/Verif/Props/*.lean'))):
    ns = []
    for m in re.finditer(r'^(?:namespace ([\w.]+)$|end ([\w.]+)$|theorem (C\d\d+_\w+))', open(f).read(), re.M):
        if m.group(1): ns.append(m.group(1))
        elif m.group(2):
            if ns and ns[-1] == m.group(2): ns.pop()
        else: thms.setdefault(m.group(3).split('_')[0], []).append('.'.join(ns + [m.group(3)]))
claims = []
for p in props:
    t = thms.get(p, [])
    note = NOTES.get(p, '')
    if not t:
        if p in NOTES:
            claims.append({"property": p, "status": "not_applicable", "theorems": [], "note": note})
        continue
    bad = [x for x in t if re.search(r'_(partial|refuted|wrong|fails|lost)$', x)]
    claims.append({"property": p, "status": "partial" if bad else "proved", "theorems": t, "note": note})
with open(os.path.join(here, 'MANIFEST.json'), 'w') as f:
    f.write('{"claims": [\n' + ',\n'.join(' ' + json.dumps(c) for c in claims) + '\n]}\n')
missing = [p for p in props if p not in thms]
print(len(claims), 'claims; missing', missing)
for c in claims:
    if c['status'] == 'partial' and not c['note']:
        print('no note for', c['property'])
