"""Print the statements (without proofs) of the property theorems whose names match the given regex."""
import re,sys,glob
pat=re.compile(sys.argv[1])
for f in sorted(glob.glob('/verif/lean/Verif/Props/**/*.lean',recursive=True)):
    t=open(f).read()
    for m in re.finditer(r'^theorem (C\d+_\w+)(.*?):=\s*(by\b|\n|⟨|fun|[A-Z(a-z])',t,re.S|re.M):
        if pat.search(m.group(1)): print(f.split('/')[-1], m.group(1)+m.group(2).rstrip(),'\n')
