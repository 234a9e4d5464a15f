#!/usr/bin/env python3
"""Regenerate lean/Verif.lean: import every module under lean/Verif."""
import os
root = os.path.join(os.path.dirname(__file__), '..', 'lean')
mods = []
for d, _, fs in os.walk(os.path.join(root, 'Verif')):
    for f in fs:
        if f.endswith('.lean'):
            rel = os.path.relpath(os.path.join(d, f), root)[:-5]
            mods.append(rel.replace(os.sep, '.'))
with open(os.path.join(root, 'Verif.lean'), 'w') as o:
    for m in sorted(mods):
        o.write(f'import {m}\n')
