#!/usr/bin/env python3
"""Systematic seeded bugs: small syntactic edits of the model's definitions, in a scratch copy; reports those no theorem notices.
usage: automut.py <per-definition> <seed> [regex of files]"""
import sys, os, re, random, subprocess, shutil, json, time
ROOT = os.path.dirname(os.path.dirname(os.path.abspath(__file__))); SCR = '/tmp/automut/lean'
PER = int(sys.argv[1]); SEED = int(sys.argv[2]); FILT = sys.argv[3] if len(sys.argv) > 3 else '.'
OUT = '/tmp/automut/out.jsonl'
os.makedirs('/tmp/automut', exist_ok=True)
subprocess.run(['rsync', '-a', '--delete', ROOT + '/lean/', SCR + '/'], check=True) if shutil.which('rsync') else (
    shutil.rmtree(SCR, ignore_errors=True), subprocess.run(['cp', '-a', ROOT + '/lean', SCR], check=True))
SLOW = {'Verif.Props.ScalarMul', 'Verif.Proofs.P256NoTorsion', 'Verif.Proofs.P256Cofactor', 'Verif.Proofs.P256Primes', 'Verif.Proofs.K256Primes'}

deps = {}
for d, _, fs in os.walk(SCR + '/Verif'):
    for f in fs:
        if f.endswith('.lean'):
            p = os.path.join(d, f); m = os.path.relpath(p, SCR)[:-5].replace('/', '.')
            deps[m] = set(re.findall(r'^import (Verif\.\S+)', open(p).read(), re.M))
def trans(m, seen=None):
    seen = set() if seen is None else seen
    for x in deps.get(m, ()):
        if x not in seen: seen.add(x); trans(x, seen)
    return seen
closure = {m: trans(m) for m in deps}

def mutants(body):
    """yield (start, end, replacement, label) in the body text"""
    out = []
    def rx(pat, rep, label):
        for m in re.finditer(pat, body):
            out.append((m.start(), m.end(), rep(m) if callable(rep) else rep, label))
    rx(r'(?<![\w.\']) (≤|≥|<|>) ', lambda m: ' ' + {'≤': '<', '<': '≤', '≥': '>', '>': '≥'}[m.group(1)] + ' ', 'boundary')
    rx(r' == ', ' != ', 'eq')
    rx(r' != ', ' == ', 'ne')
    rx(r'\bif (?!h\w* :|let)(.+?) then', lambda m: 'if ¬(' + m.group(1) + ') then', 'negate')
    rx(r' \+ (?!\+)', ' - ', 'plus')
    rx(r' - ', ' + ', 'minus')
    rx(r' \* ', ' + ', 'times')
    rx(r' && ', ' || ', 'and'); rx(r' \|\| ', ' && ', 'or')
    rx(r' ∧ ', ' ∨ ', 'and'); rx(r' ∨ ', ' ∧ ', 'or')
    rx(r'\.little\b', '.big', 'endian'); rx(r'\.big\b', '.little', 'endian')
    rx(r'\btrue\b', 'false', 'true'); rx(r'\bfalse\b', 'true', 'false')
    rx(r'(?<![\w.])(\d{1,4})(?![\w.])', lambda m: str(int(m.group(1)) + 1), 'const+1')
    rx(r'(?<![\w.])([1-9]\d{0,3})(?![\w.])', lambda m: str(int(m.group(1)) - 1), 'const-1')
    rx(r'\.reverse\b', '', 'reverse dropped')
    rx(r'\.take\b', '.drop', 'take'); rx(r'\.drop\b', '.take', 'drop')
    rx(r'\.fdiv\b', '.tdiv', 'fdiv'); rx(r'\.fmod\b', '.tmod', 'fmod')
    rx(r'\.error \.(\w+)', lambda m: '.error .' + ('typeError' if m.group(1) == 'valueError' else 'valueError'), 'error class')
    rx(r'(\w+) \+\+ (\w+)', lambda m: m.group(2) + ' ++ ' + m.group(1), 'concat swapped')
    rx(r'throw \.(\w+)', lambda m: 'throw .' + ('typeError' if m.group(1) == 'valueError' else 'valueError'), 'error class')
    rx(r'\bnone\b', None, '') if False else None
    for m in re.finditer(r'0x([0-9a-fA-F]+)', body):
        v = int(m.group(1), 16); out.append((m.start(), m.end(), hex(v ^ 1), 'hex const'))
    for m in re.finditer(r'\(([A-Za-z]\w*) ([a-z]\w*) ([a-z]\w*)\)', body):
        out.append((m.start(), m.end(), f'({m.group(1)} {m.group(3)} {m.group(2)})', 'args swapped'))
    return out

def defs(src):
    """(name, start, end) of definition bodies"""
    it = list(re.finditer(r'^(?:@\[[^\]]*\]\s*)?(?:noncomputable |protected )*(?:def|abbrev|instance)\s+(\S+)', src, re.M))
    marks = [m.start() for m in re.finditer(r'^(?:/--|def|abbrev|theorem|inductive|structure|instance|end|section|namespace|variable|open|noncomputable|@\[|deriving|private|/-!|example|set_option|mutual|lemma)', src, re.M)] + [len(src)]
    for m in it:
        e = min(x for x in marks if x > m.end())
        yield m.group(1), m.end(), e

def strip_comments(t):
    return re.sub(r'/-.*?-/|--[^\n]*', lambda m: ' ' * len(m.group(0)), t, flags=re.S)

def build(mods):
    return subprocess.run(['lake', 'build'] + ['+' + m for m in mods], cwd=SCR, capture_output=True, text=True,
        env={**os.environ, 'LAKE_ARTIFACT_CACHE': 'true', 'LAKE_CACHE_DIR': '/tmp/automut/cache'})

def errs(r):
    return re.findall(r'error: (?:\./)?(Verif/\S+?\.lean):(\d+)', r.stdout + r.stderr)

rng = random.Random(SEED)
todo = []
for d in ('Model',):
    for f in sorted(os.listdir(f'{SCR}/Verif/{d}')):
        if not re.search(FILT, f): continue
        src = open(f'{SCR}/Verif/{d}/{f}').read(); clean = strip_comments(src)
        for name, a, b in defs(clean):
            ms = mutants(clean[a:b])
            rng.shuffle(ms)
            todo += [(f'Verif/{d}/{f}', name, a + x, a + y, rep, lab) for x, y, rep, lab in ms[:PER]]
rng.shuffle(todo)
print(len(todo), 'mutants', flush=True)
done = set()
if os.path.exists(OUT):
    for l in open(OUT):
        j = json.loads(l); done.add((j['file'], j['def'], j['new']))
shutil.rmtree(SCR + '/.lake/build', ignore_errors=True)
build([m for m in deps if not m.startswith('Verif.Tests')])   # fills the artifact cache
print('start', flush=True)
for path, name, a, b, rep, lab in todo:
    full = f'{SCR}/{path}'; src = open(full).read(); new = src[:a] + rep + src[b:]
    line = src[:a].count('\n') + 1
    ln = new.split('\n')[line - 1].strip()
    if (path, name, ln) in done: continue
    mod = path[:-5].replace('/', '.')
    open(full, 'w').write(new)
    t = time.time(); res = 'SURVIVED'; where = []
    try:
        r = build([mod])
        if r.returncode: res = 'invalid'
        else:
            users = [m for m in deps if mod in closure[m] and not m.startswith('Verif.Tests') and m != 'Verif']
            # models that no longer compile make the edit invalid
            dm = [m for m in users if '.Model.' in m]
            if dm:
                r = build(dm)
                if r.returncode: res = 'invalid'
            if res != 'invalid':
                rest = sorted([m for m in users if '.Model.' not in m], key=lambda m: (m in SLOW, any(s in closure[m] for s in SLOW & set(users)), len(closure[m])))
                batches = [[m] for m in rest[:4]] + [rest[i:i + 8] for i in range(4, len(rest), 8)]
                for ms in batches:
                    r = build(ms)
                    if r.returncode:
                        res = 'caught'; where = [f'{p}:{l}' for p, l in errs(r)][:3]; break
    finally:
        open(full, 'w').write(src)
    rec = dict(file=path, **{'def': name}, line=line, label=lab, old=src.split('\n')[line - 1].strip(), new=ln, res=res, where=where, secs=round(time.time() - t))
    open(OUT, 'a').write(json.dumps(rec, ensure_ascii=False) + '\n')
    print(res, rec['secs'], path, name, lab, '|', ln if res == 'SURVIVED' else '', where[:1], flush=True)
print('END', flush=True)
