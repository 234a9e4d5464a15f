#!/usr/bin/env python3
"""Regenerate MANIFEST.json from the table below; checks that every theorem named exists."""
import json, os, re, sys
base = os.path.join(os.path.dirname(__file__), '..')
T = {}
def c(pid, status, theorems, note=''):
    T[pid] = dict(property=pid, status=status,
                  theorems=[f'Printemps.{pid}.{t}' for t in theorems.split()], note=note)

exec(open(os.path.join(os.path.dirname(__file__), 'manifest_table.py')).read())

names = set()
for d, _, fs in os.walk(os.path.join(base, 'lean', 'Verif')):
    for f in fs:
        if not f.endswith('.lean'): continue
        ns = []
        for line in open(os.path.join(d, f)):
            m = re.match(r'namespace (\S+)', line)
            if m: ns.append(m.group(1))
            m = re.match(r'end (\S+)', line)
            if m and ns and ns[-1] == m.group(1): ns.pop()
            m = re.match(r'(?:@\[.*?\] )?theorem (\S+)', line)
            if m: names.add('.'.join(ns + [m.group(1)]))
bad = [t for e in T.values() for t in e['theorems'] if t not in names]
if bad: print('UNKNOWN', bad); sys.exit(1)
props = [json.loads(l)['id'] for l in open(os.path.join(base, 'properties.jsonl'))]
miss = [p for p in props if p not in T]
if miss: print('no entry:', ' '.join(miss))
with open(os.path.join(base, 'MANIFEST.json'), 'w') as o:
    json.dump({'claims': [T[p] for p in props if p in T]}, o, indent=1, ensure_ascii=False)
    o.write('\n')
print(len(T), 'claims;', sum(len(e['theorems']) for e in T.values()), 'theorems')
