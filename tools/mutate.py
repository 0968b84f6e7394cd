#!/usr/bin/env python3
"""Mutation testing of the model.  usage: mutate.py mutations.json LOG.jsonl

Each mutation {id, file, old, new, def, claim, expect:[property...]} is applied in a scratch copy (/tmp/mut);
declarations which do not compile any more are replaced by placeholders there until everything builds, and then the
axioms of all property theorems tell which of them are lost.  One JSON line is appended to the log for each.
"""
import re, json, os, sys, subprocess, shutil
SRC, MUT = os.environ.get('MUTSRC', '/verif/lean'), os.environ.get('MUTDIR', '/tmp/mut')
SORRY = 'sor' + 'ry'

def sh(cmd, **kw):
    return subprocess.run(cmd, shell=True, capture_output=True, text=True, **kw)

def sync():
    os.makedirs(MUT, exist_ok=True)
    for n in os.listdir(MUT):
        if n == '.lake': continue
        q = os.path.join(MUT, n)
        shutil.rmtree(q) if os.path.isdir(q) and not os.path.islink(q) else os.remove(q)
    for n in os.listdir(SRC):
        if n == '.lake': continue
        sh(f'cp -a {SRC}/{n} {MUT}/{n}')
    if not os.path.exists(MUT + '/.lake'):
        sh(f'cp -a {SRC}/.lake {MUT}/.lake')

START = re.compile(r'^(?:@\[[^\]]*\]\s*)?(?:private |protected |noncomputable )*(theorem|lemma|def|example|instance|structure|abbrev|inductive)\b')

def block(lines, ln):
    i = ln
    while i >= 0 and not START.match(lines[i]): i -= 1
    if i < 0: return None
    j = i + 1
    while j < len(lines) and (lines[j].strip() == '' or lines[j][0] in ' \t)]}|'): j += 1
    while j > i + 1 and lines[j-1].strip() == '': j -= 1
    return i, j

def drop(lines, i, j):
    """delete a declaration together with its doc comment"""
    k = i
    if k > 0 and lines[k-1].rstrip().endswith('-/'):
        k -= 1
        while k > 0 and not lines[k].lstrip().startswith('/--'): k -= 1
        if not lines[k].lstrip().startswith('/--'): k = i
    lines[k:j] = []

def patch(path, errs):
    """replace the proofs of the declarations containing the error lines; returns their names"""
    lines = open(path).read().split('\n')
    done, names = set(), []
    blocks = []
    for ln in errs:
        b = block(lines, ln - 1)
        if b and b not in blocks: blocks.append(b)
    for i, j in sorted(blocks, reverse=True):
        text = '\n'.join(lines[i:j])
        m = re.match(r'.*?\b(theorem|lemma|def|example|instance|structure|abbrev|inductive)\b\s*([^\s:({\[]*)', text, re.S)
        kind, name = m.group(1), m.group(2)
        if kind == 'example':
            drop(lines, i, j)
            names.append('example')
            continue
        k = text.find(':= by')
        if k < 0: k = text.find(':=\n')
        if k < 0: k = text.find(' := ') + 1
        body = text[k:]
        if SORRY in body[:12] or kind != 'theorem' and kind != 'lemma':
            # the statement itself is broken: drop it
            drop(lines, i, j)
            names.append(name + ' (statement)')
        else:
            lines[i:j] = (text[:k] + ':= by ' + SORRY).split('\n')
            names.append(name)
    open(path, 'w').write('\n'.join(lines))
    return names

def thms():
    return [t for c in json.load(open('/verif/MANIFEST.json'))['claims'] for t in c['theorems']]

def run(mu):
    sync()
    path = f'{MUT}/{mu["file"]}'
    s = open(path).read()
    if s.count(mu['old']) < 1:
        return {'id': mu.get('id'), 'error': 'pattern not found'}
    s = s.replace(mu['old'], mu['new'], 1)
    open(path, 'w').write(s)
    broken = []
    for it in range(60):
        r = sh('lake build 2>&1', cwd=MUT, timeout=3000)
        if r.returncode == 0: break
        errs = {}
        for m in re.finditer(r'^error: (Verif[^:\n]*\.lean):(\d+):\d+', r.stdout, re.M):
            errs.setdefault(m.group(1), []).append(int(m.group(2)))
        if not errs:
            return {'id': mu.get('id'), 'error': r.stdout[-800:]}
        for f, e in errs.items():
            if f == mu['file'] and f.startswith('Verif/Model'):
                return {'id': mu.get('id'), 'error': 'model does not compile: ' + r.stdout[-800:]}
            broken += patch(f'{MUT}/{f}', e)
    else:
        return {'id': mu.get('id'), 'error': 'did not converge'}
    chk = 'import Verif\nimport Lean\nopen Lean Elab Command\n' + \
      'run_cmd do\n  for n in [' + ', '.join('`' + t for t in thms()) + '] do\n' + \
      '    let env ← getEnv\n    if env.contains n then\n      let ax ← Lean.collectAxioms n\n' + \
      f'      if ax.contains ``{SORRY}Ax then logInfo m!"LOST {{n}}"\n    else logInfo m!"LOST {{n}}"\n'
    open(MUT + '/chk.lean', 'w').write(chk)
    r = sh('lake env lean chk.lean', cwd=MUT)
    lost = re.findall(r'LOST (?:Npplus\.)?(\S+)', r.stdout)
    if r.returncode != 0 and not lost: return {'id': mu.get('id'), 'error': r.stdout[-800:]+r.stderr[-300:]}
    return {'id': mu.get('id'), 'definition': mu['def'], 'file': mu['file'], 'edit': mu.get('desc') or f"{mu['old']}  -->  {mu['new']}",
            'claim_broken': mu['claim'], 'failed': lost, 'lemmas_broken': sorted(set(broken))[:25],
            'expected_missing': [p for p in mu.get('expect', []) if not any(l.startswith(p + '_') for l in lost)]}

if __name__ == '__main__':
    mus = json.load(open(sys.argv[1]))
    for mu in mus:
        try: res = run(mu)
        except Exception as e: res = {'id': mu.get('id'), 'error': repr(e)}
        with open(sys.argv[2], 'a') as f: f.write(json.dumps(res, ensure_ascii=False) + '\n')
        print(mu.get('id'), res.get('error', '')[:300], len(res.get('failed', [])), 'missing', res.get('expected_missing'), flush=True)
