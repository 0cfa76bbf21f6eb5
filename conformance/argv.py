"""Compares `parseArgs` of lean/Verif/Model/CommandLine.lean with Python's argparse.

The parser below is declared like cli_arg_parser.py:10-153; no code of the project is run.
Random command lines are parsed by both; prints the number of accepted ones and of disagreements.
"""
import argparse, random, subprocess, io, contextlib, json
def mk():
    class P(argparse.ArgumentParser):
        pass
    m=P(); sub=m.add_subparsers(title='command',dest='command'); sub.required=True
    split=lambda s: s.split(',')
    c=sub.add_parser('generate-cosmos'); c.add_argument('input_paths',nargs='+',type=str)
    c.add_argument('--asn1-module',type=str,required=True); c.add_argument('--asn1-messages',type=split,required=True)
    c.add_argument('--output-file-name',type=str,required=True); c.add_argument('--output-dir',type=str,default='output/cosmos')
    for n in ('cfs','c','binary'):
        c=sub.add_parser('generate-'+n); c.add_argument('input_paths',nargs='+',type=str)
        c.add_argument('--asn1-modules',type=split,required=True); c.add_argument('--output-dir',type=str,default='output/'+n)
        if n=='binary': c.add_argument('--endianness',type=str,choices=['little-endian','big-endian'])
    return m
random.seed(5)
opts=['--asn1-module','--asn1-messages','--asn1-modules','--output-file-name','--output-dir','--endianness','--help','-h']
vals=['a','b.asn','x,y','','-','-1','-1.5','-.5','-x','big-endian','little-endian','a b','-a b','--x y','--','=','a=b','-5=','--asn1-m','--o','--output-d','--asn1-modules=','--end=big-endian','--h','--he=1','-hx','-h=1','--x','-٣']
def word():
    r=random.random()
    if r<.45: return random.choice(vals[:3]+vals)
    o=random.choice(opts)
    if random.random()<.3: o=o[:random.randint(2,len(o))]
    if random.random()<.3: o+='='+random.choice(vals)
    return o
def argv():
    cmd=random.choice(['generate-cosmos','generate-cfs','generate-c','generate-binary'])
    if random.random()<.03: cmd=random.choice(['generate','-h','--x','generate-c=','',])
    out=[cmd]
    base={'generate-cosmos':['--asn1-module','--asn1-messages','--output-file-name']}.get(cmd,['--asn1-modules'])
    parts=[[b,random.choice(vals[:3]+vals)] if random.random()<.6 else [b+'='+random.choice(vals)] for b in base]
    parts.append([random.choice(vals[:3]*6+vals) for _ in range(random.randint(1,3))])
    for _ in range(random.randint(0,2)): parts.append([word() for _ in range(random.randint(1,2))])
    if random.random()<.15: parts.pop(random.randrange(len(parts)))
    random.shuffle(parts)
    return out+[w for p in parts for w in p]
def real(a):
    m=mk()
    try:
        with contextlib.redirect_stderr(io.StringIO()),contextlib.redirect_stdout(io.StringIO()):
            r=m.parse_args(a)
    except SystemExit: return None
    d=vars(r)
    if d['command']=='generate-cosmos': return [d['input_paths'],'cosmos',d['asn1_module'],','.join(d['asn1_messages']),d['output_file_name'],d['output_dir']]
    n=d['command'][9:]
    e=[d['input_paths'],n,','.join(d['asn1_modules']),d['output_dir']]
    if n=='binary': e.append(d['endianness'] or '')
    return e
L=[argv() for _ in range(4000)]
R=[real(a) for a in L]
print(sum(r is not None for r in R))
q=lambda s: json.dumps(s,ensure_ascii=False)
with open('/tmp/argv.lean','w') as f:
    f.write('''import Verif.Model.CommandLine
open Apg
def S (t : Text) : String := String.ofList t
def sh (a : List String) : String := match parseArgs (a.map String.toList) with
 | none => "none"
 | some (ps, a) => toString (ps.map S) ++ "|" ++ (match a with
   | .cosmos m n t o => s!"cosmos|{S m}|{S n}|{S t}|{S o}"
   | .cfs m o => s!"cfs|{S m}|{S o}"
   | .c m o => s!"c|{S m}|{S o}"
   | .binary m o e => s!"binary|{S m}|{S o}|" ++ (match e with | none => "" | some .little => "little-endian" | some .big => "big-endian"))
''')
    for i in range(0,len(L),100):
        f.write('#eval IO.println (String.intercalate "\\n" (['+',\n'.join('['+','.join(map(q,a))+']' for a in L[i:i+100])+'].map sh))\n')
out=subprocess.run('cd /verif/lean; lake env lean /tmp/argv.lean',shell=True,capture_output=True,text=True)
got=[l for l in out.stdout.split('\n') if l!='']
print(len(got), out.stderr[:300])
bad=0
for a,r,g in zip(L,R,got):
    e='none' if r is None else '['+', '.join(r[0])+']|'+'|'.join(r[1:])
    if e!=g:
        bad+=1
        if bad<12: print(a,e,g)
print('bad',bad)
