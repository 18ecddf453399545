#!/usr/bin/env python3
"""Append the finished records of automut.py to seeded/LOG.jsonl (each once).  /tmp/automut/judged.json maps "def|new line" of a survivor to
{"claim": ..., "tightened": [...]}; survivors without a judgement are left for later."""
import json, os, re
ROOT = os.path.dirname(os.path.dirname(os.path.abspath(__file__))); SCR = '/tmp/automut/lean'
LOG = ROOT + '/seeded/LOG.jsonl'; J = '/tmp/automut/judged.json'
judged = json.load(open(J)) if os.path.exists(J) else {}
have = {(r.get('definition'), r.get('edit')) for r in map(json.loads, open(LOG))}
def name_at(loc):
    f, l = loc.rsplit(':', 1)
    ls = open(f'{SCR}/{f}').read().split('\n')
    for i in range(min(int(l), len(ls)) - 1, -1, -1):
        m = re.match(r'(?:@\[[^\]]*\] ?)?(?:private |protected )?(?:theorem|lemma|def|instance)\s+(\S+)|(example)', ls[i])
        if m: return m.group(1) or f'example@{os.path.basename(f)}:{i + 1}'
n = left = 0
with open(LOG, 'a') as out:
    for r in map(json.loads, open('/tmp/automut/out.jsonl')):
        if r['res'] == 'invalid': continue
        edit = f"{r['label']}: `{r['old']}` -> `{r['new']}`"
        if (r['def'], edit) in have: continue
        if r['res'] == 'SURVIVED':
            j = judged.get(r['def'] + '|' + r['new'])
            if not j: left += 1; print('unjudged', r['def'], r['new']); continue
            rec = dict(definition=r['def'], edit=edit, claim_broken=j['claim'], theorems_failed=[], theorems_tightened=j.get('tightened', []))
        else:
            failed = []
            for w in r['where']:
                x = name_at(w)
                if x and x not in failed: failed.append(x)
            rec = dict(definition=r['def'], edit=edit, claim_broken='generated edit; stopped at the first module that no longer builds',
                       theorems_failed=failed, theorems_tightened=[])
        have.add((r['def'], edit)); n += 1
        out.write(json.dumps(rec, ensure_ascii=False) + '\n')
print(n, 'logged', left, 'left')
