import random, struct, binascii, math
from fractions import Fraction
random.seed(7)
out=[]
def ls(s): return '['+','.join('Char.ofNat %d'%ord(c) for c in s)+']'
def lb(b): return '['+','.join(str(x) for x in b)+']'
def q(fr): return '((%d : ℚ)/%d)'%(fr.numerator,fr.denominator)
def pf(x):
    if math.isnan(x): return '.nan'
    if math.isinf(x): return '.inf '+('true' if x<0 else 'false')
    return '.fin '+q(Fraction(x))
def rtext():
    k=random.random()
    if k<.5: return ''.join(random.choice('0123456789.eE+-_ ') for _ in range(random.randint(0,8)))
    if k<.7: return random.choice(['',' ','+','-','--'])+random.choice(['inf','nan','Infinity','INF','infinit','NaN','1e5','1e400','-1e-400','.5','5.','.','1_0','1__0','_1','1_','1_.5','1e1_0','0x10','٣','1e+','1e-7x'])+random.choice(['',' ','\n','x'])
    return repr(random.random()*10**random.randint(-30,30)) if k<.85 else '%d.%de%d'%(random.randint(0,10**random.randint(1,25)),random.randint(0,10**20),random.randint(-340,310))
asc=lambda s:''.join(s)
L=[]
for _ in range(1500):
    s=rtext()
    if not s.isascii(): continue
    try: r='.ok (%s)'%pf(float(s))
    except ValueError: r='.error .valueError'
    L.append('chk "float %s" (floatOfText true id %s) (%s)'%(s.encode('unicode_escape').decode().replace('\\','\\\\').replace('"',"'"),ls(s),r))
    try: r='.ok (%d)'%int(s)
    except ValueError: r='.error .valueError'
    L.append('chk "int %s" (intOfText true id %s) (%s)'%(s.encode('unicode_escape').decode().replace('\\','\\\\').replace('"',"'"),ls(s),r))
for _ in range(400):
    a=random.randint(-10**random.randint(1,40),10**random.randint(1,40)); b=random.choice([0,10**8,random.randint(-10**random.randint(1,40),10**random.randint(1,40))])
    try: r='.ok (%s)'%pf(a/b)
    except ZeroDivisionError: r='.error .zeroDivision'
    except OverflowError: r='.error .overflowError'
    L.append('chk "div %d %d" (intTrueDiv (%d) (%d)) (%s)'%(a,b,a,b,r))
for _ in range(300):
    n=random.choice([-1,1])*random.randint(0,2**random.randint(1,1030))
    try: r='.ok (%s)'%pf(float(n))
    except OverflowError: r='.error .overflowError'
    L.append('chk "fl %d" (floatOfInt (%d)) (%s)'%(n,n,r))
    for f,nm in (('f','32'),('d','64')):
        try: r='.ok '+lb(struct.pack('<'+f,n))
        except OverflowError: r='.error .overflowError'
        except struct.error: r='.error .structError'
        L.append('chk "pk%s %d" (structPackFloat .binary%s .little (.int (%d))) (%s)'%(nm,n,nm,n,r))
def fv(x):
    if math.isnan(x): return '.nan'
    if math.isinf(x): return '.inf '+('true' if x<0 else 'false')
    return '.fin %s %s'%('true' if math.copysign(1,x)<0 else 'false', q(abs(Fraction(x))))
for _ in range(600):
    b=bytes(random.choice([0,255,127,128,random.randint(0,255)]) for _ in range(8))
    x=struct.unpack('<d',b)[0]
    L.append('chk "ud %s" (structUnpackFloat .binary64 .little %s) (.ok (%s))'%(b.hex(),lb(b),fv(x)))
    y=struct.unpack('>f',b[:4])[0]
    L.append('chk "uf %s" (structUnpackFloat .binary32 .big %s) (.ok (%s))'%(b.hex(),lb(b[:4]),fv(y)))
    if not math.isnan(x):
        try: r='.ok '+lb(struct.pack('<f',x))
        except OverflowError: r='.error .overflowError'
        L.append('chk "pf %s" (structPackFloat .binary32 .little (.float (%s))) (%s)'%(b.hex(),fv(x),r))
for _ in range(600):
    n=random.randint(-2**random.randint(1,70),2**random.randint(1,70)); c=random.choice('bBhHiIqQ'); e=random.choice('<>')
    try: r='.ok '+lb(struct.pack(e+c,n))
    except struct.error: r='.error .structError'
    L.append("chk \"pi %s%d\" (structPackInt '%s' %s (.int (%d))) (%s)"%(c,n,c,'.little' if e=='<' else '.big',n,r))
    ln=random.randint(1,9); sg=random.choice([True,False])
    try: r='.ok '+lb(n.to_bytes(ln,'big' if e=='>' else 'little',signed=sg))
    except OverflowError: r='.error .overflowError'
    L.append('chk "tb %d" (intToBytes (%d) %d %s %s) (%s)'%(n,n,ln,'.little' if e=='<' else '.big','true' if sg else 'false',r))
for _ in range(500):
    s=''.join(random.choice('0123456789abcdefABCDEFg '*1) for _ in range(random.randint(0,7)))
    try: r='.ok '+lb(bytearray.fromhex(s))
    except ValueError: r='.error .valueError'
    L.append('chk "fh %s" (fromHex %s) (%s)'%(s,ls(s),r))
    try: r='.ok '+lb(binascii.unhexlify(s))
    except binascii.Error: r='.error .binasciiError'
    L.append('chk "uh %s" (unhexlifyVal (.str %s)) (%s)'%(s,ls(s),r))
    b=b''.join(struct.pack('<H',random.choice([0xd800,0xdc00,0xdbff,0xdfff,0x41,0xffff,0xe000])) for _ in range(random.randint(0,4)))[:random.choice([1,3,8,8,8])]
    try: r='.ok '+ls(b.decode('utf-16-le'))
    except UnicodeDecodeError: r='.error .valueError'
    L.append('chk "u16 %s" (utf16Decode %s) (%s)'%(b.hex(),lb(b),r))
N=100
with open('D.lean','w') as f:
    f.write('import Verif.Py.NumberText\nimport Verif.Py.Codecs\nimport Verif.Model.Floats\nopen Py\ndef chk {α} [DecidableEq α] (n : String) (a b : α) : IO Nat := do\n  if a = b then return 0 else IO.println s!"MISMATCH {n}"; return 1\n')
    k=0
    for i in range(0,len(L),N):
        f.write('def t%d : IO Unit := do\n'%k)
        for l in L[i:i+N]: f.write('  let _ ← '+l+'\n')
        k+=1
    for i in range(k): f.write('#eval t%d\n'%i)
print(len(L))
