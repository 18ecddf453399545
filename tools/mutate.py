"""Run seeded-bug experiments: python3 tools/mutate.py <list.py> [scratch dir].

<list.py> defines M = [(file under lean/Verif, definition, old, new, edit, claim id, claim broken), ...]; `old` may also be
a list of (file, old, new) edits made together (then `new` is ignored), e.g. a reader and a writer agreeing on a wrong format.
Each edit is applied to a scratch copy of lean/, rebuilt and undone; one JSON line per experiment is appended to
seeded/LOG.jsonl. Experiments already logged (same definition and edit) are skipped.
"""
import json, os, re, subprocess, sys, shutil, runpy
ROOT = '/verif'
lst = sys.argv[1]
SCR = sys.argv[2] if len(sys.argv) > 2 else '/tmp/mutwork/lean'
M = runpy.run_path(lst)['M']
LOG = ROOT + '/seeded/LOG.jsonl'
done = set()
if os.path.exists(LOG):
    for l in open(LOG):
        j = json.loads(l); done.add((j['definition'], j['edit']))
os.makedirs(SCR, exist_ok=True)
subprocess.run(['rsync', '-a', '--delete', ROOT + '/lean/', SCR + '/'], check=True) if shutil.which('rsync') else \
    subprocess.run(f'rm -rf {SCR} && cp -a {ROOT}/lean {SCR}', shell=True, check=True)

TARGETS = {  # what is rebuilt after an edit of these files (the slow curve proofs only when they are concerned)
    'Model/WriterSteps.lean': ['WriterThreads', 'WriteErrors'],
    'Model/ReaderSteps.lean': ['ReaderThreads', 'ReadErrors'],
    'Model/Writer.lean': ['Truncation', 'WriterThreads', 'WriteByte', 'Layout', 'FloatLayout', 'VarIntOrder', 'StreamContext', 'FailedCalls', 'Encodings', 'Ints', 'VarInt', 'Strings', 'ConvertUInt', 'History', 'Records', 'UInt', 'Decode', 'RoundTripIff'],
    'Model/Reader.lean': ['ReadString', 'Truncation', 'ReaderThreads', 'WriteByte', 'Layout', 'FloatLayout', 'VarIntOrder', 'StreamContext', 'FailedCalls', 'Encodings', 'Ints', 'VarInt', 'Strings', 'ConvertUInt', 'History', 'Records', 'UInt', 'Address', 'Decode', 'RoundTripIff'],
    'Py/Core.lean': ['StreamContext'],
    'Model/EcdsaPkg.lean': ['SignVerify'],
    'Model/FieldOps.lean': ['FieldOps', 'CurveOps'],
    'Model/CurveOps.lean': ['CurveOps'],
    'Model/Floats.lean': ['FloatTwice', 'Floats', 'FloatLayout'],
    'Model/Cli.lean': ['Cli'],
    'Model/Operators.lean': ['Operators'],
    'Model/Threads.lean': ['Threads'],
    'Model/Recursion.lean': ['Recursion', 'MerkleRecursion'],
    'Model/Fixed8.lean': ['Fixed8TextExact', 'Fixed8Exact', 'Fixed8Large', 'Fixed8Division', 'NamedAmounts', 'Fixed8', 'Fixed8More', 'Fixed8Text', 'Fixed8Decimal', 'Fixed8Agree', 'Fixed8Parse'],
    'Model/MulCost.lean': ['MulCost'], 'Model/MerkleCost.lean': ['MerkleCost'], 'Model/MerkleShared.lean': ['MerkleShared'], 'Model/Surrogates.lean': ['Surrogates'],
    'Model/ClassLookup.lean': ['ClassLookup'], 'Model/Hashing.lean': ['Hashing'], 'Model/Fixed8Big.lean': ['Fixed8Big'],
    'Model/CryptoInstance.lean': ['DefaultCrypto'],
    'Model/Crypto.lean': ['FreshCurve', 'Crypto', 'SignVerify', 'SignMore', 'SignKeys'],
    'Model/Merkle.lean': ['Merkle', 'MerkleBranch', 'MerkleSame'],
    'Model/Fixed8Text.lean': ['Fixed8TextExact', 'Fixed8Text', 'Fixed8Parse'],
    'Model/Base58.lean': ['Address', 'KeyPair', 'Crypto'],
    'Model/Helper.lean': ['Address', 'KeyPair', 'Crypto', 'ScriptHash', 'RandomKey'],
    'Py/NumberText.lean': ['NumberTexts'],
    'Model/Bitcoin.lean': ['SignForms', 'SignVerify', 'SignMore', 'SignKeys'],
    'Model/KeyPair.lean': ['KeyPair', 'Crypto', 'WalletMore', 'Cli', 'Nep2More', 'Nep2Standard'],
    'Model/ECCurve.lean': ['Field', 'FieldMore', 'FieldSqrt', 'Curve', 'PublicKey', 'PublicKeyMore', 'PointOrder', 'Ecdsa', 'ScalarMul', 'ScalarClasses', 'CurveOps', 'ReducedPoints', 'SignK256', 'NamedCurves'],
    'Model/BigInteger.lean': ['BigInteger', 'Operators', 'Fixed8Big'],
    'Model/RandomKey.lean': ['RandomKey'],
    'Model/ValueEq.lean': ['ValueEq'],
    'Model/Builtins.lean': ['Builtins'],
    'Model/UIntDict.lean': ['UIntDict'],
    'Model/Fixed8Vars.lean': ['Fixed8Vars'],
    'Model/UInt.lean': ['UIntTexts', 'UIntDict', 'Ints', 'VarInt', 'Strings', 'ConvertUInt', 'History', 'Records', 'UInt', 'Address', 'Decode', 'RoundTripIff'],
}

def build(f=None):
    t = ['Verif.Props.' + x for x in TARGETS.get(f, [])]
    r = subprocess.run(['lake', 'build'] + t, cwd=SCR, capture_output=True, text=True)
    return r.stdout + r.stderr

def decl_at(path, line):
    src = open(path).read().split('\n')
    for i in range(min(line, len(src)) - 1, -1, -1):
        m = re.match(r'\s*(?:@\[[^\]]*\]\s*)?(?:private |protected |noncomputable |open .* in )*(theorem|def|lemma|example|instance|abbrev|structure)\s*(\S*)', src[i])
        if m:
            return m.group(2) if m.group(1) != 'example' else f'example@{os.path.basename(path)}:{i+1}'
    return '?'

def imports():
    dep = {}
    for d, _, fs in os.walk(SCR + '/Verif'):
        for f in fs:
            if f.endswith('.lean'):
                p = os.path.join(d, f)
                mod = os.path.relpath(p, SCR)[:-5].replace('/', '.')
                dep[mod] = set(re.findall(r'^import (Verif\.\S+)', open(p).read(), re.M))
    return dep

def theorems():
    t = {}
    for d, _, fs in os.walk(SCR + '/Verif/Props'):
        for f in fs:
            p = os.path.join(d, f)
            mod = os.path.relpath(p, SCR)[:-5].replace('/', '.')
            for n in re.findall(r'^theorem (C\d+_\S+)', open(p).read(), re.M):
                t[n] = mod
    return t

def uses():
    """declaration name -> its source text, over Proofs and Props (to follow uses of a failed declaration)"""
    t = {}
    for d, _, fs in os.walk(SCR + '/Verif'):
        for f in fs:
            if f.endswith('.lean'):
                parts = re.split(r'^(?=(?:private |protected |noncomputable )*(?:theorem|lemma|def|example|instance)\b)', open(os.path.join(d, f)).read(), flags=re.M)
                for q in parts[1:]:
                    m = re.match(r'(?:private |protected |noncomputable )*(?:theorem|lemma|def)\s+(\S+)', q)
                    if m: t[m.group(1)] = q
    return t

def depends(names):
    """declarations that textually rest on one of `names` (transitively)"""
    src = uses(); bad = set(names); ch = True
    while ch:
        ch = False
        for n, q in src.items():
            if n not in bad:
                words = set(re.findall(r"[\w'.]+", q))
                if any(b.split('.')[-1] in {w.split('.')[-1] for w in words} for b in bad if not b.startswith('example')):
                    bad.add(n); ch = True
    return bad

vl = open(SCR + '/Verif.lean').read()   # the replayed unit tests are not theorems: leave them out
open(SCR + '/Verif.lean', 'w').write('\n'.join(l for l in vl.split('\n') if 'Verif.Tests' not in l))
base = build()
assert 'error' not in base.lower().replace('errors', ''), base[-3000:]
for (f, definition, old, new, edit, cid, claim) in M:
    if (definition, edit) in done:
        continue
    edits = old if isinstance(old, list) else [(f, old, new)]
    origs = {g: open(f'{SCR}/Verif/{g}').read() for g, _, _ in edits}
    cur = dict(origs)
    if any(origs[g].count(o) != 1 for g, o, _ in edits):
        print('BAD PATTERN', definition, edit, [origs[g].count(o) for g, o, _ in edits]); continue
    for g, o, n in edits:
        cur[g] = cur[g].replace(o, n)
    for g in cur:
        open(f'{SCR}/Verif/{g}', 'w').write(cur[g])
    out = build(f)
    failed = []
    for m in re.finditer(r'error: (Verif/\S+\.lean):(\d+):\d+', out):
        n = decl_at(f'{SCR}/{m.group(1)}', int(m.group(2)))
        q = (m.group(1)[:-5].replace('/', '.'), n)
        if q not in failed: failed.append(q)
    dep = imports()
    bad = {q[0] for q in failed}
    blocked = set()
    ch = True
    while ch:
        ch = False
        for mod, ds in dep.items():
            if mod not in bad and mod not in blocked and (ds & (bad | blocked)):
                blocked.add(mod); ch = True
    th = theorems()
    mine = [n for n in th if n.startswith(cid + '_')]
    hit = [n for n in mine if (th[n], n) in failed]
    blk = [n for n in mine if th[n] in blocked]
    rest = depends({q[1] for q in failed if re.match(r'C\d+_', q[1]) or q[0].startswith('Verif.Pro')})
    weak = not hit and not blk and not any(n in rest for n in mine)
    rec = {'definition': definition, 'edit': edit, 'claim_broken': f'{cid}: {claim}',
           'theorems_failed': sorted({q[1] for q in failed}),
           'not_rebuilt_because_a_lemma_failed': sorted(n for n in mine if n in blk),
           'theorems_tightened': []}
    if not failed: rec['verdict'] = 'SURVIVED'
    elif weak: rec['verdict'] = 'CLAIM THEOREMS SURVIVED'
    open(LOG, 'a').write(json.dumps(rec, ensure_ascii=False) + '\n')
    print(definition, '|', edit, '|', rec.get('verdict', 'caught'), rec['theorems_failed'][:6], flush=True)
    for g in origs:
        open(f'{SCR}/Verif/{g}', 'w').write(origs[g])
