import random,math,sys
def isp(n):
    if n<2: return False
    for q in (2,3,5,7,11,13,17,19,23,29,31,37):
        if n%q==0: return n==q
    d=n-1;s=0
    while d%2==0:d//=2;s+=1
    for _ in range(24):
        a=random.randrange(2,n-1);x=pow(a,d,n)
        if x in(1,n-1):continue
        for _ in range(s-1):
            x=x*x%n
            if x==n-1:break
        else:return False
    return True
def rho(n,it=2000000):
    if n%2==0:return 2
    y=random.randrange(n);c=random.randrange(1,n);g=r=q=1;tot=0
    while g==1:
        x=y
        for _ in range(r): y=(y*y+c)%n
        k=0
        while k<r and g==1:
            ys=y
            for _ in range(min(128,r-k)):
                y=(y*y+c)%n;q=q*abs(x-y)%n
            g=math.gcd(q,n);k+=128;tot+=128
        r*=2
        if tot>it:return None
    if g==n:
        g=1
        while g==1:
            ys=(ys*ys+c)%n;g=math.gcd(abs(x-ys),n)
    return g if g!=n else None
def primes(N):
    s=bytearray([1])*(N+1);s[0]=s[1]=0
    for i in range(2,int(N**.5)+1):
        if s[i]:s[i*i::i]=bytearray(len(s[i*i::i]))
    return [i for i in range(N+1) if s[i]]
PR=primes(3000000)
def ecm(n,B1,B2):
    s=random.randrange(6,n);u=(s*s-5)%n;v=4*s%n
    x=pow(u,3,n);z=pow(v,3,n)
    t=4*pow(u,3,n)*v%n
    g=math.gcd(t,n)
    if g>1:return g if g<n else None
    a24=(pow(v-u,3,n)*(3*u+v)*pow(t,-1,n))%n  # A+2
    a24=a24*pow(4,-1,n)%n
    def dbl(X,Z):
        s=(X+Z)**2%n;d=(X-Z)**2%n;t=s-d
        return s*d%n,t*(d+a24*t)%n
    def add(P,Q,D):
        a=(P[0]-P[1])*(Q[0]+Q[1]);b=(P[0]+P[1])*(Q[0]-Q[1])
        return D[1]*(a+b)**2%n, D[0]*(a-b)**2%n
    def mul(k,P):
        if k==1:return P
        if k==2:return dbl(*P)
        R0=P;R1=dbl(*P)
        for b in bin(k)[3:]:
            if b=='1':R0=add(R1,R0,P);R1=dbl(*R1)
            else:R1=add(R1,R0,P);R0=dbl(*R0)
        return R0
    Q=(x,z)
    for p in PR:
        if p>B1:break
        k=p
        while k*p<=B1:k*=p
        Q=mul(k,Q)
    g=math.gcd(Q[1],n)
    if 1<g<n:return g
    if g==n:return None
    # stage2 simple
    D=210
    S={};S[1]=Q;S[2]=dbl(*Q)
    for j in range(3,D+1): S[j]=add(S[j-1],Q,S[j-2])
    m=B1//D
    T=mul(m*D,Q) if m>0 else None
    if m<1:return None
    R=S[D];Tp=mul((m-1)*D,Q) if m>1 else None
    if m<=1:return None
    acc=1
    import bisect
    i=bisect.bisect(PR,m*D)
    while i<len(PR) and PR[i]<B2:
        base=m*D
        while i<len(PR) and PR[i]<base+D:
            j=PR[i]-base
            acc=acc*(T[0]*S[j][1]-T[1]*S[j][0])%n if j in S else acc
            i+=1
        T,Tp=add(T,R,Tp),T
        m+=1
    # note: uses x(mD)==x(j) => kills mD±j; ok
    g=math.gcd(acc,n)
    return g if 1<g<n else None
def factor(n):
    if n==1:return []
    if isp(n):return [n]
    for p in PR[:10000]:
        if n%p==0:return sorted([p]+factor(n//p))
    g=rho(n,1000000)
    while not g:
        for B1,cnt in((2000,30),(11000,80),(50000,300)):
            for _ in range(cnt):
                g=ecm(n,B1,B1*50)
                if g:break
            if g:break
    return sorted(factor(g)+factor(n//g))
seen={}
def pratt(n):
    if n in seen or n<1000:return
    f=factor(n-1);seen[n]=f
    for a in range(2,1000):
        if pow(a,n-1,n)==1 and all(pow(a,(n-1)//q,n)!=1 for q in set(f)):break
    print(n,a,f,flush=True)
    for q in set(f):pratt(q)
pratt(int(sys.argv[1],0))
