import re,subprocess
certs={}
for l in open('/tmp/pratt.txt'):
    m=re.match(r'(\d+) (\d+) \[(.*)\]',l)
    if m: certs[int(m[1])]=(int(m[2]),[int(x) for x in m[3].split(',')])
out=[]
done=set()
def emit(n):
    if n in done: return
    done.add(n)
    if n<10**6:
        out.append(f"theorem prime_{n} : Nat.Prime {n} := by norm_num");return
    a,f=certs[n]
    for q in sorted(set(f)): emit(q)
    alts=" | ".join("rfl" for _ in f)
    pr="\n".join(f"  · exact prime_{q}" for q in f)
    out.append(f"""theorem prime_{n} : Nat.Prime {n} := by
  refine Pratt.prime_of _ {a} {f} (by norm_num) (by decide +kernel) (by norm_num) ?_ (by decide +kernel) (by decide +kernel)
  intro f hf
  simp only [List.mem_cons, List.not_mem_nil, or_false] at hf
  rcases hf with {alts}
{pr}""")
import sys
for n in map(lambda x:int(x,0),sys.argv[1:]): emit(n)
print("\n\n".join(out))
