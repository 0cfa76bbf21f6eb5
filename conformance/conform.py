'''Run the Lean model on the inputs of /repo/tests/integration and compare with the
expected output files. The input texts are read by the parser of the model; the trees are
compared with those of a second parser written here with Python's `re`.
Usage: python3 conform.py (after `lake build`).'''
import re,sys,os,glob,subprocess,json
os.makedirs('/tmp/apg_conf',exist_ok=True)
from fractions import Fraction
floats={}
class P:
    def __init__(s,t): s.t=t; s.i=0
    def ws(s):
        while s.i<len(s.t) and s.t[s.i] in ' \t\n\r': s.i+=1
    def lit(s,x,skip=True):
        j=s.i
        if skip: s.ws()
        if s.t.startswith(x,s.i): s.i+=len(x); return True
        s.i=j; return False
    def rex(s,r,skip=True):
        j=s.i
        if skip: s.ws()
        m=re.compile(r,re.M).match(s.t,s.i)
        if m and m.end()>m.start(): s.i=m.end(); return m.group()
        s.i=j; return None
    def must(s,x,skip=True):
        if not s.lit(x,skip): raise Fail(x,s.i)
    def opt(s,f,*a):
        j=s.i
        try: return f(*a)
        except Fail: s.i=j; return None
class Fail(Exception): pass
LOW=r'[a-z][a-z\d]*(-[a-z\d]+)*'; CAP=r'[A-Z][a-z\d]*(-[a-z\d]+)*'
INT=r'[-+]?[0-9]+\b'; SF=r'[+-]?(\d+(\.\d*)?|\.\d+)([eE][+-]?\d+)?(?<=[\w\.])(?![\w\.])'
def need(x,p):
    if x is None: raise Fail('need',p.i)
    return x
def comment(p):
    while p.lit(' ',False): pass
    p.must('--',False)
    while p.lit(' ',False): pass
    le=p.lit('ENDIANNESS(LITTLE)',False)
    while p.lit(' ',False): pass
    unit=''
    j=p.i
    if p.lit('[',False):
        u=p.rex(r'[%A-Za-z\d/\^]+',False)
        if u and p.lit(']',False): unit=u
        else: p.i=j
    while p.lit(' ',False): pass
    c=p.rex(r'[A-Za-z0-9\*\(\)\./%:, -_]+$',False) or ''
    return (c,unit,le)
def num(p,strict):
    v=need(p.rex(SF if strict else INT,False),p)
    return v
def strictfloat(p,skip):
    m=p.rex(r'[+-]?(\d+(\.\d*)?|\.\d+)([eE][+-]?\d+)?(?<=[\w\.])(?![\w\.])',skip)
    if m is None or re.fullmatch(r'[+-]?\d+',m): raise Fail('sf',p.i)
    return float(m)
def typ(p):
    p.must(' ',False)
    if p.lit('REAL',False):
        r=p.opt(lambda:(p.must('(',False),strictfloat(p,False),p.must(' .. ',False),strictfloat(p,False),p.must(')',False)))
        return ('plain','REAL',r and r[1],r and r[3])
    if p.lit('INTEGER',False):
        r=p.opt(lambda:(p.must('(',False),int(need(p.rex(INT,False),p)),p.must('..',False),int(need(p.rex(INT,False),p)),p.must(')',False)))
        return ('plain','INTEGER',None if r is None else r[1],None if r is None else r[3])
    if p.lit('NULL',False): return ('plain','NULL',None,None)
    if p.lit('BOOLEAN',False): return ('plain','BOOLEAN',None,None)
    for s in ('IA5String','NumericString'):
        j=p.i
        if p.lit(s,False):
            # ws skipping applies inside Asn1String? noskipws inherited
            p.must(' (SIZE (',False); n=int(need(p.rex(INT,False),p)); p.must('))',False)
            return ('str',s,n)
    if p.lit('SEQUENCE (SIZE (',False):
        n=int(need(p.rex(INT,False),p)); p.must(')) OF',False)
        return ('arr',typ(p),n)
    return ('plain',need(p.rex(CAP,False),p),None,None)
def wc(p):
    p.must('(WITH COMPONENTS {'); p.opt(comment,p)
    items=[]
    while True:
        k=need(p.rex(LOW),p)
        j=p.i
        v=None
        if p.lit('('):
            a=p.rex(INT)
            if a is not None and p.lit(')'): v=('int',int(a))
            else:
                p.i=j; p.must('(')
                try:
                    f=strictfloat(p,True); p.must(')'); v=('flt',f)
                except Fail:
                    p.i=j; p.must('(')
                    if p.lit('TRUE'): v=('bool',True)
                    elif p.lit('FALSE'): v=('bool',False)
                    if v: p.must(')')
        if v is None:
            p.i=j; v=('node',wc(p))
        items.append((k,v))
        if p.lit(','): p.opt(comment,p); continue
        p.opt(comment,p); break
    p.must('})'); return items
def members(p):
    ms=[]
    while True:
        k=need(p.rex(LOW),p); t=typ(p)
        if p.lit(','):
            c=p.opt(comment,p); ms.append((k,t,c,None)); continue
        c=p.opt(comment,p); w=p.opt(wc,p)
        ms.append((k,t,c,w))
        if w is not None and p.lit(','): continue
        break
    return ms
def definition(p):
    n=need(p.rex(CAP),p)
    for kind,l in (('choice','::= CHOICE {'),('enum','::= ENUMERATED {'),('seq','::= SEQUENCE {')):
        if p.lit(l):
            c=p.opt(comment,p)
            if kind=='enum':
                its=[]
                while True:
                    k=need(p.rex(LOW),p); pos=0
                    j=p.i
                    if p.lit('('): pos=int(need(p.rex(INT),p)); p.must(')')
                    if p.lit(','): its.append((k,pos,p.opt(comment,p))); continue
                    its.append((k,pos,p.opt(comment,p))); break
                p.must('}'); return (kind,n,c,its)
            ms=members(p); p.must('}'); return (kind,n,c,ms)
    p.must('::='); t=typ(p); c=p.opt(comment,p)
    return ('simple',n,c,t)
def module(t):
    p=P(t); p.must('Module-'); n=need(p.rex(LOW),p); p.must('DEFINITIONS AUTOMATIC TAGS ::= BEGIN')
    c=p.opt(comment,p); imps=[]; ci=None
    if p.lit('IMPORTS'):
        while True:
            ds=[need(p.rex(CAP),p)]
            while p.lit(','): ds.append(need(p.rex(CAP),p))
            p.must('FROM Module-'); m=need(p.rex(LOW),p); p.opt(comment,p); imps.append((ds,m))
            if p.lit(';'): break
        ci=p.opt(comment,p)
    ds=[]
    while True:
        if p.lit('END'): break
        ds.append(definition(p))
    return (n,c,ci,imps,ds)
def q(s): return json.dumps(s,ensure_ascii=False)
def lnum(x):
    if isinstance(x,float):
        if x in (float('inf'),-float('inf')): return '.inf %s'%('true' if x<0 else 'false')
        f=Fraction(x); floats[f]=repr(x)
        return '.flt ((%d : Rat) / %d)'%(f.numerator,f.denominator)
    return '.int (%d)'%x
def lopt(x,f): return 'none' if x is None else '(some (%s))'%f(x)
def lcom(c): return '(⟨%s, %s, %s⟩ : Comment)'%(q(c[0]),q(c[1]),'true' if c[2] else 'false')
def ltyp(t):
    if t[0]=='plain': return '.plain %s %s %s'%(q(t[1]),lopt(t[2],lnum),lopt(t[3],lnum))
    if t[0]=='str': return '.str %s (%d)'%(q(t[1]),t[2])
    return '.arr (%s) (%d)'%(ltyp(t[1]),t[2])
def lwc(items):
    r='.nil'
    for k,v in reversed(items):
        if v[0]=='node': r='.node %s (%s) (%s)'%(q(k),lwc(v[1]),r)
        else:
            x={'int':lambda a:'.int (%d)'%a,'flt':lambda a:'.flt (%s)'%lnum(a),'bool':lambda a:'.bool '+('true' if a else 'false')}[v[0]](v[1])
            r='.leaf %s (%s) (%s)'%(q(k),x,r)
    return r
def lmem(m): return '⟨%s, %s, %s, %s⟩'%(q(m[0]),ltyp(m[1]),lopt(m[2],lcom),lopt(m[3],lwc))
def ldef(d):
    if d[0]=='enum': b='[%s]'%', '.join('⟨%s, %d, %s⟩'%(q(i[0]),i[1],lopt(i[2],lcom)) for i in d[3])
    elif d[0]=='simple': b='(%s)'%ltyp(d[3])
    else: b='[%s]'%', '.join(map(lmem,d[3]))
    return '.%s %s %s %s'%(d[0],q(d[1]),lopt(d[2],lcom),b)
def lmod(m): return '{ name := %s, comment := %s, commentImport := %s, imports := [%s], defs := [%s] }'%(q(m[0]),lopt(m[1],lcom),lopt(m[2],lcom),', '.join('⟨[%s], %s⟩'%(', '.join(map(q,i[0])),q(i[1])) for i in m[3]),',\n    '.join(map(ldef,m[4])))
cases=[]; body=[]
root='/repo/tests/integration'
for it in sorted(glob.glob(root+'/**/test.itest',recursive=True)):
    S=os.path.dirname(it)
    for line in open(it).read().replace('\\\nRUN:','').splitlines():
        m=re.match(r'RUN: .*?%asn1_parser (generate-\w+) (.*)',line)
        if not m: continue
        cmd,args=m.groups()
        args=re.split(r'\s*[|&>]',args)[0]
        toks=args.replace('%S',S).split()
        files=[];opts={}
        j=0
        while j<len(toks):
            t=toks[j]
            if t.startswith('--'):
                if '=' in t: k,v=t.split('=',1)
                else: k,v=t,toks[j+1]; j+=1
                opts[k]=v.strip('"')
            else: files+=sorted(glob.glob(t)) if '*' in t else [t]
            j+=1
        files=[f for f in files if f.endswith('.asn')]
        floats_before=dict(floats)
        try: mods=[module(open(f).read()) for f in files]
        except (Fail,FileNotFoundError) as e: print('PARSE',it,line,e); continue
        n=len(cases)
        body.append('def pymods%d : List Module := [%s]'%(n,',\n  '.join(map(lmod,mods))))
        body.append('def texts%d : List String := [%s]'%(n,', '.join(q(open(f).read()) for f in files)))
        body.append('def mods%d : List Module := texts%d.filterMap fun t => (Parse.parseModule t.toList).map (·.1)'%(n,n))
        body.append('#eval IO.print (if mods%d = pymods%d then "@@%d parsed " else "@@%d differs ")'%(n,n,n,n))
        names=opts.get('--asn1-modules','').split(',')
        cfg='[%s]'%', '.join(map(q,names))
        out='"out".toList'
        if cmd=='generate-cfs': run='runCfs 100 pr mods%d %s %s'%(n,cfg,out)
        elif cmd=='generate-c': run='runC 100 pr mods%d %s %s'%(n,cfg,out)
        elif cmd=='generate-binary':
            e={'little-endian':'(some .little)','big-endian':'(some .big)'}.get(opts.get('--endianness'),'none')
            run='runBinary 100 %s mods%d %s %s'%(e,n,cfg,out)
        else: run='runCosmos 100 pr mods%d %s [%s] %s.toList %s'%(n,q(opts['--asn1-module']),', '.join(map(q,opts['--asn1-messages'].split(','))),q(opts['--output-file-name']),out)
        cases.append((it,line,S)); body.append('#eval IO.print (showRun %d (%s))'%(n,run))
tab=', '.join('(((%d : Rat) / %d), %s)'%(f.numerator,f.denominator,q(r)) for f,r in floats.items())
open('/tmp/apg_conf/Conf.lean','w').write('''import Verif
open Apg
def tab : List (Rat × String) := [%s]
def pr : Printer := ⟨fun x => match x with | .flt q => ((tab.find? (·.1 = q)).map (·.2)).getD "?" |>.toList | .inf true => "-inf".toList | .inf false => "inf".toList | _ => [], fun _ => "<obj>".toList⟩
def showC (c : Content) : String := String.ofList (c.flatMap fun x => match x with | .inl c => [c] | .inr b => ("\\\\x" ++ toString b.toNat ++ ";").toList)
def showRun (n : Nat) (r : Run) : String :=
  String.join (r.ops.map fun o => match o with
    | .mkdir p => s!"@@{n} mkdir {String.ofList p}\\x01"
    | .write p c => s!"@@{n} write {String.ofList p}\\x01{showC c}\\x02"
    | .append p c => s!"@@{n} append {String.ofList p}\\x01{showC c}\\x02") ++ s!"@@{n} result {reprStr r.result}\\x01"
'''%tab+'\n'.join(body))
r=subprocess.run(['lake','env','lean','/tmp/apg_conf/Conf.lean'],cwd='/verif/lean',capture_output=True,text=True)
if 'error' in r.stdout: print(r.stdout[:3000])
outs={}
res={}
trees=0
for n,k,rest in re.findall(r'@@(\d+) (\w+) (.*?)(?=@@\d+ (?:parsed|differs|mkdir|write|append|result)|\Z)',r.stdout,re.S):
    n=int(n)
    if k in('write','append'):
        path,c=rest.split('\x01',1); outs.setdefault(n,{})[path]=c.split('\x02')[0]
    elif k=='differs': print('TREE',n)
    elif k=='parsed': trees+=1
    elif k=='result': res[n]=rest.strip()
ok=bad=0
for n,(it,line,S) in enumerate(cases):
    exp=[f for f in glob.glob(S+'/expected/**/*',recursive=True) if os.path.isfile(f)]
    o=outs.get(n,{})
    short=it[len(root)+1:-11]
    done=set()
    for f in exp:
        b=os.path.basename(f)
        cand=[p for p in o if os.path.basename(p)==b]
        if not cand: continue
        got=o[cand[0]]
        e=''.join('\\x%d;'%x for x in open(f,'rb').read()) if b.endswith('.bin') else open(f).read()
        if got==e: ok+=1
        else:
            bad+=1; print('DIFF',short,b); open('/tmp/got','w').write(got); open('/tmp/exp','w').write(e)
            print(subprocess.run(['diff','/tmp/exp','/tmp/got'],capture_output=True,text=True).stdout[:800])
        done.add(b)
    print(n,short,res.get(n,'?').split('\x01')[0],sorted(done),'missing',sorted(os.path.basename(f) for f in exp if os.path.basename(f) not in done))
print('ok',ok,'bad',bad,'inputs with equal trees',trees,'of',len(cases))
