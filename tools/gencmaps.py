#!/usr/bin/env python3
"""Writes lean/Verif/Model/CmapData.lean from the text of /repo/npplus/pyplotx/mpl2cmaps.py."""
import re, os
s = open('/repo/npplus/pyplotx/mpl2cmaps.py').read()
start = {'magma': 26, 'inferno': 283, 'plasma': 540, 'viridis': 797}
out = ['''import Mathlib.Data.Nat.Notation

/-!
# The colour tables of npplus/pyplotx/mpl2cmaps.py

The components are the decimal numbers of the source in units of 10^-6.  Generated from the text by tools/gencmaps.py.
-/

namespace Npplus.Cmaps
''']
for n, l0 in start.items():
    t = s[s.index('_%s_data' % n):]
    t = t[:t.index(']]')]
    rows = re.findall(r'(\d\.\d{6}), (\d\.\d{6}), (\d\.\d{6})', t)
    out.append('/-- mpl2cmaps.py:%d-%d -/' % (l0, l0 + 255))
    out.append('def %sData : List (ℕ × ℕ × ℕ) := [' % n)
    R = ['(%d, %d, %d)' % tuple(int(x.replace('.', '')) for x in r) for r in rows]
    for k in range(0, len(R), 6):
        out.append('  ' + ', '.join(R[k:k+6]) + (',' if k + 6 < len(R) else ']'))
    out.append('')
out.append('end Npplus.Cmaps')
open(os.path.join(os.path.dirname(os.path.abspath(__file__)), '../lean/Verif/Model/CmapData.lean'), 'w').write('\n'.join(out) + '\n')
