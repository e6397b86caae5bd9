"""Run one or more edits of the model in a scratch copy and see which property theorems depend on a proof
that no longer goes through.

mutate.py edits.json: a list of {"file", "old", "new", "definition", "edit", "breaks"}.
In the copy the proofs that fail are replaced by placeholders until everything builds; a property theorem
counts as failed if its axioms then show a placeholder.  One JSON line per edit is printed.
"""
import json, os, re, shutil, subprocess, sys
SRC = os.path.join(os.path.dirname(os.path.abspath(__file__)), '..')
TMP = os.environ.get('MUT_DIR', '/tmp/mut')

def run(cmd, cwd, t=3000):
    p = subprocess.run(cmd, cwd=cwd, capture_output=True, text=True, timeout=t)
    return p.stdout + p.stderr

START = re.compile(r'^(@\[.*\] )?((private |protected |noncomputable )*)(theorem|lemma|example|def|instance|structure|abbrev|inductive)\b')

def hole(path, line):
    """Replace the proof of the declaration around `line` by a placeholder; returns its name or None."""
    ls = open(path).read().split('\n')
    i = min(line, len(ls)) - 1
    if ls[i].startswith('#guard'):
        while i + 1 < len(ls) and ls[i + 1].startswith(' '): del ls[i + 1]
        ls[i] = ''
        open(path, 'w').write('\n'.join(ls))
        return 'test'
    while i >= 0 and not START.match(ls[i]): i -= 1
    if i < 0: return None
    m = START.match(ls[i])
    kind = m.group(4)
    rest = ls[i][m.end():].split()
    name = rest[0] if kind != 'example' and rest else 'example'
    if kind not in ('theorem', 'lemma', 'example'): return None
    j = i + 1
    while j < len(ls) and (ls[j].startswith(' ') or ls[j] == '' or ls[j].startswith(')')):
        j += 1
    # `j` is the first line of the next command; cut the comment or blank lines before it
    while j > i + 1 and ls[j-1] == '': j -= 1
    new = None
    for k in range(i, j):
        if ls[k].rstrip().endswith(':= by') or ls[k].rstrip().endswith(':='):
            new = ls[i:k] + [ls[k].rstrip()[:ls[k].rstrip().rindex(':=')] + ':= sorry']; break
        if ls[k].rstrip().endswith(' where'):
            new = ls[i:k] + [ls[k].rstrip()[:-6] + ' := sorry']; break
        if k > i and ls[k].startswith('  | '):
            new = ls[i:k] + ['  := sorry']; break
    if new is None:
        text = '\n'.join(ls[i:j])
        if ' := ' not in text: return None
        new = [text[:text.rindex(' := ')] + ' := sorry']
    if new == ls[i:j]: return None
    ls[i:j] = new
    open(path, 'w').write('\n'.join(ls))
    return name

def claims():
    d = json.load(open(os.path.join(SRC, 'MANIFEST.json')))
    return [t for c in d['claims'] for t in c['theorems']]

def one(e):
    os.makedirs(TMP, exist_ok=True)
    shutil.rmtree(TMP)
    shutil.copytree(SRC + '/lean', TMP, symlinks=True)
    f = os.path.join(TMP, e['file'])
    s = open(f).read()
    if s.count(e['old']) != 1:
        return {'error': 'old text occurs %d times' % s.count(e['old']), **e}
    open(f, 'w').write(s.replace(e['old'], e['new']))
    direct, stuck = [], None
    for _ in range(40):
        out = run(['lake', 'build'], TMP)
        errs = [(a, int(b)) for a, b in re.findall(r'error: (\S+\.lean):(\d+):\d+', out)]
        if not errs and 'Build completed successfully' in out: break
        if not errs: continue  # interrupted, for example for lack of memory
        done = set()
        progress = False
        for a, b in sorted(set(errs), key=lambda x: (x[0], -x[1])):
            ls = open(os.path.join(TMP, a)).read().split('\n')
            k = min(b, len(ls)) - 1
            while k >= 0 and not START.match(ls[k]): k -= 1
            if ls[min(b, len(ls)) - 1].startswith('#guard'): k = b
            if (a, k) in done: continue
            done.add((a, k))
            n = hole(os.path.join(TMP, a), b)
            if n is None: stuck = '%s:%d' % (a, b)
            else:
                progress = True
                direct.append(n)
        if stuck and not progress: break
        stuck = None
    else:
        stuck = 'too many rounds'
    failed = []
    if stuck is None:
        t = os.path.join(TMP, 'Check.lean')
        open(t, 'w').write('import Verif\n' + ''.join('#print axioms %s\n' % c for c in claims()))
        out = run(['lake', 'env', 'lean', 'Check.lean'], TMP)
        os.remove(t)
        if 'depends on axioms' not in out: stuck = out[:300]
        for m in re.finditer(r"'([^']+)' depends on axioms: \[([^\]]*)\]", out.replace('\n', ' ')):
            if 'sorryAx' in m.group(2): failed.append(m.group(1).replace('Hycu.', ''))
    return {'definition': e['definition'], 'edit': e['edit'], 'breaks': e['breaks'],
            'failed_proofs': direct, 'failed_theorems': sorted(set(failed)), 'stuck': stuck}

for e in json.load(open(sys.argv[1])):
    print(json.dumps(one(e), ensure_ascii=False), flush=True)
