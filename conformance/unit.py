'''Run the Lean parser and validator on the texts in /repo/tests/unit and compare the
outcome (accepted, or which exception) with what each test expects. Skipped and disabled tests are
listed but not compared. Usage: python3 unit.py (after `lake build`).'''
import ast,glob,json,os,subprocess
os.makedirs('/tmp/apg_conf',exist_ok=True)
ERR={'TextXSyntaxError':['textxSyntax'],'ASN1ConsistencyError':['consistency'],
     'IndexError':['indexError'],'ValueError':['valueError'],'FloatingPointError':['floatingPoint']}
def strings(e):
    if isinstance(e,ast.Call) and isinstance(e.func,ast.Attribute) and e.func.attr=='lstrip':
        return [s.lstrip() for s in strings(e.func.value)]
    if isinstance(e,ast.Constant) and isinstance(e.value,str): return [e.value]
    if isinstance(e,ast.List): return [s for x in e.elts for s in strings(x)]
    return []
cases=[]
for f in sorted(glob.glob('/repo/tests/unit/**/test_*.py',recursive=True)):
    for fn in ast.parse(open(f).read()).body:
        if not isinstance(fn,ast.FunctionDef): continue
        skip=fn.name.startswith('_') or any('skip' in ast.unparse(d) for d in fn.decorator_list)
        env={}; exp='ok'; call=None
        for n in ast.walk(fn):
            if isinstance(n,ast.Assign) and isinstance(n.targets[0],ast.Name):
                s=strings(n.value)
                if s and all('Module-' in x for x in s): env[n.targets[0].id]=s
        for n in ast.walk(fn):
            if isinstance(n,ast.Call):
                u=ast.unparse(n.func)
                if u=='pytest.raises': exp=ast.unparse(n.args[0])
                if u.split('.')[-1] in('parse_from_text','parse_from_text_multimodule','build_from_texts') and call is None:
                    a=n.args[0] if n.args else n.keywords[0].value
                    call=(u.split('.')[-1],env.get(ast.unparse(a)) or strings(a))
        if call and call[1]: cases.append((os.path.basename(f),fn.name,skip,exp,call))
        else: print('no text',os.path.basename(f),fn.name)
body=['import Verif','open Apg','def err {α} : Except Err α → String | .ok _ => "ok" | .error e => reprStr e',
'def single (t : String) : Except Err Unit := readModule t.toList >>= fun m => checkComponents m.defs']
for i,(f,n,s,e,(fun,texts)) in enumerate(cases):
    T='['+', '.join(json.dumps(t,ensure_ascii=False) for t in texts)+']'
    r={'parse_from_text':f'single ({T}.getD 0 "")','parse_from_text_multimodule':f'readModules ({T}.map String.toList)',
       'build_from_texts':f'buildTexts ({T}.map String.toList)'}[fun]
    body.append(f'#eval IO.println s!"@@{i} {{err ({r})}}"')
open('/tmp/apg_conf/Unit.lean','w').write('\n'.join(body))
r=subprocess.run(['lake','env','lean','/tmp/apg_conf/Unit.lean'],cwd='/verif/lean',capture_output=True,text=True)
if 'error:' in r.stdout: print(r.stdout[:2000])
got={int(l.split()[0][2:]):l.split()[1].split('.')[-1] for l in r.stdout.splitlines() if l.startswith('@@')}
ok=bad=0
for i,(f,n,s,e,c) in enumerate(cases):
    want=['ok'] if e=='ok' else ERR.get(e,[e])
    if s: print('skipped',f,n,'expected',want,'got',got.get(i)); continue
    if got.get(i) in want: ok+=1
    else: bad+=1; print('DIFF',f,n,'expected',want,'got',got.get(i))
print('ok',ok,'bad',bad)
