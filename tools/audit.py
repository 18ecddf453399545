#!/usr/bin/env python3
"""print property + statements of its theorems: audit.py 1 15"""
import sys,json,re,subprocess,os
R=os.path.dirname(os.path.dirname(os.path.abspath(__file__)))
lo,hi=int(sys.argv[1]),int(sys.argv[2])
man={c['property']:c for c in json.load(open(R+'/MANIFEST.json'))['claims']}
th={}
for d,_,fs in os.walk(R+'/lean/Verif/Props'):
    for f in fs:
        s=open(os.path.join(d,f)).read()
        for m in re.finditer(r'((?:/--(?:(?!-/).)*-/\s*)?)(?:set_option \S+ \S+ in\s*)?^theorem (C\d+_\S+)(.*?):=\s*(?:by\b|\n|fun|⟨|if_|[A-Za-z(])',s,re.S|re.M):
            th[m.group(2)]=(f,m.group(1).strip(),m.group(3).rstrip())
for l in open(R+'/properties.jsonl'):
    p=json.loads(l); n=int(p['id'][1:])
    if lo<=n<=hi:
        c=man[p['id']]
        print(f"\n=== {p['id']} [{c['status']}] {p['title']}\n{p['statement']}")
        for t in c['theorems']:
            f,doc,st=th.get(t.split('.')[-1],('?','',''))
            print(f"-- {t} ({f}){st}")
