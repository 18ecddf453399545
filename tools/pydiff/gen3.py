import random, struct, math
from decimal import Decimal
random.seed(5)
L=[]
def ls(s): return '['+','.join('Char.ofNat %d'%ord(c) for c in s)+']'
for _ in range(1500):
    x=random.choice([random.random()*10**random.randint(-20,25), random.randint(0,10**random.randint(1,19))/10**8, abs(struct.unpack('<d',bytes(random.randint(0,255) for _ in range(8)))[0]), 10.0**random.randint(-10,20)])
    if x==0 or math.isnan(x) or math.isinf(x): continue
    t=Decimal(repr(x)).normalize().as_tuple()
    d=int(''.join(map(str,t.digits)))
    L.append('chk "%r" (formatShort %d (%d)) %s'%(x,d,t.exponent,ls(repr(x))))
ops={'add':lambda a,b:a+b,'sub':lambda a,b:a-b,'mul':lambda a,b:a*b,'floordiv':lambda a,b:a//b,'mod':lambda a,b:a%b,'lshift':lambda a,b:a<<b,'rshift':lambda a,b:a>>b,'and':lambda a,b:a&b,'or':lambda a,b:a|b,'xor':lambda a,b:a^b,'pow':lambda a,b:a**b}
for _ in range(1500):
    o=random.choice(list(ops)); a=random.choice([random.randint(-20,20),random.randint(-2**70,2**70)]); b=random.choice([random.randint(-9,9),random.randint(-2**66,2**66)])
    if o in('lshift','pow','rshift'): b=random.randint(-9,60)
    try:
        v=ops[o](a,b); r='.ok (.int (%d))'%v if isinstance(v,int) else '.ok .powFloat'
    except ZeroDivisionError: r='.error .zeroDivision'
    except ValueError: r='.error .valueError'
    L.append('chk "%s %d %d" (Operators.intOp .%s (%d) (%d)) (%s)'%(o,a,b,'«and»' if 0 else o,a,b,r))
N=50
with open('D3.lean','w') as f:
    f.write('import Verif.Py.FloatText\nimport Verif.Model.Operators\nopen Py Neo\nset_option maxHeartbeats 0\nset_option maxRecDepth 100000\ndef chk {α} [DecidableEq α] (n : String) (a b : α) : IO Nat := do\n  if a = b then return 0 else IO.println s!"MISMATCH {n}"; return 1\n')
    k=0
    for i in range(0,len(L),N):
        f.write('def t%d : IO Unit := do\n'%k)
        for l in L[i:i+N]: f.write('  let _ ← '+l+'\n')
        k+=1
    for i in range(k): f.write('#eval t%d\n'%i)
print(len(L))
