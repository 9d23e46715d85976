#!/usr/bin/env python3
"""seed.py MUTATIONS.json OUT.jsonl : apply each edit to a scratch copy of lean/, rebuild, and report
which theorems fail.

Each entry: {"definition", "file", "old", "new", "claim", "ids": ["C01"], "target": "Verif.Arith.Props"}.
A declaration whose proof breaks is replaced by `sorry` in the scratch copy and the build is repeated,
so that breakage is propagated along real dependencies; a claim theorem counts as failed when its
axioms then include sorryAx.
"""
import json, os, re, subprocess, sys, shutil, time

SRC = os.path.join(os.path.dirname(os.path.abspath(__file__)), '..', 'lean')
W = '/tmp/seed/lean'
KEY = re.compile(r'^(theorem|lemma|example|def|instance|abbrev|structure|inductive|private theorem|private def|@\[)')
TOP = re.compile(r'^(theorem|lemma|example|def|instance|abbrev|structure|inductive|private|@\[|/--|/-!|end|namespace|section|open|variable|set_option|mutual|noncomputable|deriving)')

def sh(cmd, t=3600):
    return subprocess.run(cmd, cwd=W, shell=True, capture_output=True, text=True, timeout=t)

def split_stmt(block):
    depth = 0
    i = 0
    head = block.find(':= by\n')
    if head > 0 and re.search(r'\n +let .* := ', block[:head]): return block[:head]
    while i < len(block):
        c = block[i]
        if c in '([{⟨': depth += 1
        elif c in ')]}⟩': depth -= 1
        elif depth == 0 and block.startswith(':=', i): return block[:i]
        elif depth == 0 and re.match(r'\n\s+\| ', block[i:i+8]): return block[:i]
        elif depth == 0 and block.startswith('| ', i) and block[i-1] == ' ' and '\n' in block[:i] and block[:i].rstrip(' ').endswith('\n'): return block[:i]
        i += 1
    return None

def neutralise(path, lineno):
    ls = open(path).read().split('\n')
    k = lineno - 1
    while k >= 0 and not KEY.match(ls[k]): k -= 1
    if k < 0: return None
    start = k
    head = ls[start]
    if head.startswith('@['):
        if not re.search(r'\b(theorem|lemma)\b', head): return None
    e = start + 1
    while e < len(ls) and not TOP.match(ls[e]): e += 1
    block = '\n'.join(ls[start:e])
    if not re.match(r'^(@\[[^\]]*\] *)?(private )?(theorem|lemma|example|instance)', head): return ('DEF', head)
    m = re.search(r'(theorem|lemma|instance)\s+(\S+)', head)
    name = m.group(2) if m else 'example@%s:%d' % (os.path.basename(path), start + 1)
    st = split_stmt(block)
    if st is None: return None
    if 'sorry' in block[len(st):] and len(block) - len(st) < 20: return None
    new = (st + ':= by sorry\n').split('\n')
    new += [''] * ((e - start) - len(new))
    ls[start:e] = new
    open(path, 'w').write('\n'.join(ls))
    return ('THM', name)

def run(mu):
    if os.path.isdir(W): sh('true')
    os.makedirs('/tmp/seed', exist_ok=True)
    subprocess.run(['rsync', '-a', '--delete', SRC + '/', W + '/'], check=False) if shutil.which('rsync') else (shutil.rmtree(W, ignore_errors=True), shutil.copytree(SRC, W))
    p = os.path.join(W, mu['file'])
    s = open(p).read()
    if s.count(mu['old']) != 1:
        return {'error': 'old text occurs %d times' % s.count(mu['old'])}
    open(p, 'w').write(s.replace(mu['old'], mu['new']))
    targets = mu['target'].split()
    broken = []
    for it in range(40):
        r = sh('lake build ' + ' '.join(targets))
        out = r.stdout + r.stderr
        errs = sorted(set((m.group(1), int(m.group(2))) for m in re.finditer(r'error: (Verif/[\w/]+\.lean):(\d+):\d+', out)), reverse=True)
        if not errs:
            if r.returncode != 0: return {'error': out[-600:]}
            break
        done = set(); progress = False
        for f, l in errs:
            q = neutralise(os.path.join(W, f), l)
            if q is None: continue
            if q[0] == 'DEF': return {'error': 'definition does not compile: ' + q[1] + ' :: ' + out[:800], 'broken': broken}
            progress = True
            if q[1] not in broken: broken.append(q[1])
        if not progress: return {'error': 'stuck ' + out[:800], 'broken': broken}
    # claim theorems
    thms = []
    for t in targets:
        d = os.path.dirname(t.replace('.', '/'))
        for root, _, fs in os.walk(os.path.join(W, d)):
            for f in fs:
                if f.endswith('.lean'):
                    ns = []
                    for line in open(os.path.join(root, f)):
                        m = re.match(r'^namespace (\S+)', line)
                        if m: ns.append(m.group(1))
                        m = re.match(r'^end (\S+)', line)
                        if m and ns and ns[-1] == m.group(1): ns.pop()
                        m = re.match(r"^theorem (C\d+_[\w']+)", line)
                        if m: thms.append(('.'.join(ns + [m.group(1)]), m.group(1), os.path.join(d, f)))
    thms = sorted(set(thms))
    ids = mu.get('ids') or []
    sel = [t for t in thms if t[1].split('_')[0] in ids]
    body = ''.join('import %s\n' % t for t in targets) + ''.join('#print axioms %s\n' % t[0] for t in sel)
    open(os.path.join(W, 'ax.lean'), 'w').write(body)
    r = sh('lake env lean ax.lean')
    out = r.stdout + r.stderr
    failed, ok = [], []
    for t in sel:
        m = re.search(r"'%s' (depends on axioms: \[([^\]]*)\]|does not depend)" % re.escape(t[0]), out)
        if not m: failed.append(t[1] + '?'); continue
        (failed if 'sorryAx' in m.group(0) else ok).append(t[1])
    return {'broken': broken, 'failed': failed, 'survived': ok}

if __name__ == '__main__':
    mus = json.load(open(sys.argv[1]))
    for mu in mus:
        t0 = time.time()
        try: res = run(mu)
        except Exception as ex: res = {'error': repr(ex)}
        res['mut'] = mu; res['sec'] = round(time.time() - t0)
        with open(sys.argv[2], 'a') as f: f.write(json.dumps(res) + '\n')
