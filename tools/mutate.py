#!/usr/bin/env python3
"""Run seeded wrong programs against the theorems.

usage: mutate.py <file with a list MUTATIONS> [names...]
Each mutation is a dict: definition, file (below lean/Verif), old, new, claim (what is false now), props.
The edit is made in a scratch copy of lean/ (never in /verif), the project is rebuilt, and the declarations
whose proofs fail are collected; one JSON line per attempt is appended to seeded/LOG.jsonl."""
import json, os, re, shutil, subprocess, sys
ROOT = os.path.dirname(os.path.dirname(os.path.abspath(__file__)))
SCR = '/tmp/mut/lean'
LOG = os.path.join(ROOT, 'seeded', 'LOG.jsonl')

def sync():
    os.makedirs('/tmp/mut', exist_ok=True)
    subprocess.run(['rsync', '-a', '--delete', ROOT + '/lean/', SCR + '/'], check=True) if shutil.which('rsync') else \
        (shutil.rmtree(SCR, ignore_errors=True), subprocess.run(['cp', '-a', ROOT + '/lean', SCR], check=True))

def decl_at(path, line):
    ls = open(path).read().split('\n')
    for i in range(min(line, len(ls)) - 1, -1, -1):
        m = re.match(r'\s*(?:private |noncomputable |protected )*(theorem|lemma|def|abbrev|structure|inductive|instance)\s+(\S+)', ls[i])
        if m: return m.group(2)
        if re.match(r'example\b', ls[i]): return 'example'
    return '?'

def built(out, p):
    return re.search(r'(Built|Replayed) Verif\.Props\.' + p + r'\b', out) is not None

def run(mu):
    path = os.path.join(SCR, 'Verif', mu['file'])
    orig = open(path).read()
    if orig.count(mu['old']) < 1: 
        print('NOT FOUND', mu['definition'], mu['old'][:60]); return None
    open(path, 'w').write(orig.replace(mu['old'], mu['new'], 1))
    try:
        targets = ['Verif.Props.' + p for p in mu['props']]
        r = subprocess.run(['lake', 'build'] + targets, cwd=SCR, capture_output=True, text=True)
        fails = []
        for m in re.finditer(r'^error: (Verif/\S+\.lean):(\d+):', r.stdout + r.stderr, re.M):
            d = decl_at(os.path.join(SCR, m.group(1)), int(m.group(2)))
            n = m.group(1)[6:-5].replace('/', '.') + ':' + d
            if n not in fails: fails.append(n)
        blocked = [p for p in mu['props'] if r.returncode and not any(f.startswith('Props.' + p + ':') for f in fails)
                   and re.search(r'(?:Building|Running|error|✖).*' + p, r.stdout) is None and not built(r.stdout, p)]
        return r.returncode, fails, blocked
    finally:
        open(path, 'w').write(orig)

if __name__ == '__main__':
    ns = {}
    exec(open(sys.argv[1]).read(), ns)
    sync()
    for mu in ns['MUTATIONS']:
        res = run(mu)
        if res is None: continue
        rc, fails, blocked = res
        entry = {'definition': mu['definition'], 'file': 'lean/Verif/' + mu['file'], 'edit': mu.get('edit') or ('`%s` -> `%s`' % (mu['old'].strip(), mu['new'].strip())),
                 'claim_broken': mu['claim'], 'properties': mu['props'], 'theorems_failed': fails, 'modules_not_reached': blocked, 'caught': rc != 0, 'tightened': mu.get('tightened', [])}
        print('CAUGHT ' if rc else 'MISSED ', mu['definition'], '|', mu['claim'][:80], '|', fails[:4], flush=True)
        open(LOG, 'a').write(json.dumps(entry) + '\n')
