import random, hashlib, hmac, io
from decimal import *
random.seed(11)
def ls(s): return '['+','.join('Char.ofNat %d'%ord(c) for c in s)+']'
def lb(b): return '(['+','.join(str(x) for x in b)+'] : List UInt8)'
L=[]
rb=lambda n: bytes(random.randint(0,255) for _ in range(n))
for n in list(range(0,140,3))+[55,56,63,64,119,120,128]:
    b=rb(n)
    L.append('chk "sha %d" (Hashes.sha256 %s) %s'%(n,lb(b),lb(hashlib.sha256(b).digest())))
    L.append('chk "rip %d" (Hashes.ripemd160 %s) %s'%(n,lb(b),lb(hashlib.new('ripemd160',b).digest())))
    k=rb(random.choice([0,20,64,65,100]))
    L.append('chk "hmac %d" (Kdf.hmac %s %s) %s'%(n,lb(k),lb(b),lb(hmac.new(k,b,'sha256').digest())))
for _ in range(12):
    pw=rb(random.randint(0,70)); s=rb(random.randint(0,20)); n=random.choice([2,4,16,32]); r=random.randint(1,8); p=random.randint(1,3); l=random.randint(1,100)
    L.append('chk "scrypt" (Kdf.scrypt %d %d %d %s %s %d) %s'%(n,r,p,lb(pw),lb(s),l,lb(hashlib.scrypt(pw,salt=s,n=n,r=r,p=p,dklen=l))))
for _ in range(600):
    d=random.randint(1,45); c=random.choice([-1,1])*random.randint(0,10**d); e=random.randint(-40,30)
    if random.random()<.3: c=int('9'*d)
    if random.random()<.3: c=random.randint(0,10**27)*10+5; c=c*10**random.randint(0,8)
    if random.random()<.05: e=random.choice([999960,999990,1000000-d-9,1000000-d-8,1000000-d-7])
    D=Decimal((0 if c>=0 else 1,tuple(map(int,str(abs(c)))),e))
    try:
        v=D*10**8
        if e>1000: r=None
        else: r='.ok (%d)'%int(v)
    except Overflow: r='.error .decimalOverflow'
    if r is None: L.append('chk "dec %d %d" ((Fixed8.Dec.mulInt ⟨%d,%d⟩ 100000000).isOk) true'%(c,e,c,e))
    elif 'error' in r: L.append('chk "dec %d %d" ((Fixed8.Dec.mulInt ⟨%d,%d⟩ 100000000).isOk) false'%(c,e,c,e))
    else: L.append('chk "dec %d %d" ((Fixed8.Dec.mulInt ⟨%d,%d⟩ 100000000).map Fixed8.Dec.toInt) (%s)'%(c,e,c,e,r))
for _ in range(200):
    s=''.join(chr(random.choice([65,0x7f,0x80,0x7ff,0x800,0xffff,0x10000,0x10ffff,0xd7ff,0xe000,random.randint(0,0x2fff)])) for _ in range(random.randint(0,5)))
    L.append('chk "u8" (utf8 %s) %s'%(ls(s),lb(s.encode())))
    L.append('chk "u16e" (Codec.utf16le.encode %s) (.ok %s)'%(ls(s),lb(s.encode('utf-16-le'))))
for _ in range(400):
    b=rb(random.randint(0,6)); st=io.BytesIO(b); p=random.randint(0,9); st.seek(p)
    init='(⟨%s,%d⟩ : Stream)'%(lb(b),p)
    if random.random()<.5:
        n=random.randint(-2,8); x=st.read(n)
        L.append('chk "rd" (Stream.read (%d) %s) (.ok %s,⟨%s,%d⟩)'%(n,init,lb(x),lb(st.getvalue()),st.tell()))
    else:
        w=rb(random.randint(0,5)); n=st.write(w)
        L.append('chk "wr" (Stream.write %s %s) (.ok %d,⟨%s,%d⟩)'%(lb(w),init,n,lb(st.getvalue()),st.tell()))
N=25
with open('D2.lean','w') as f:
    f.write('import Verif.Py.Codecs\nimport Verif.Model.Primitives\nimport Verif.Model.Hashes\nimport Verif.Model.Fixed8\nopen Py Neo\nset_option maxHeartbeats 0\nset_option maxRecDepth 100000\ndef chk {α} [DecidableEq α] (n : String) (a b : α) : IO Nat := do\n  if a = b then return 0 else IO.println s!"MISMATCH {n}"; return 1\n')
    k=0
    for i in range(0,len(L),N):
        f.write('def t%d : IO Unit := do\n'%k)
        for l in L[i:i+N]: f.write('  let _ ← '+l+'\n')
        k+=1
    for i in range(k): f.write('#eval t%d\n'%i)
print(len(L))
