#!/usr/bin/env python3
"""Automatic mutation sweep over the model.  Scratch copies in /tmp/automut; never touches /verif/lean.

usage: automut.py gen            write /tmp/automut/list.json
       automut.py run [N]        run up to N mutants not yet in /tmp/automut/results.jsonl

Each mutant changes one token of one line of a definition in lean/Verif/Model/*.lean.  A mutant is
  invalid   if its own file no longer compiles,
  detected  if some other module of the project fails (the build is stopped at the first failure),
  SURVIVED  if the whole project still builds."""
import sys, os, re, json, subprocess, shutil, time, signal
SRC=os.environ.get('MUT_SRC','/tmp/stable'); W='/tmp/automut'; DST=W+'/lean'
OPS=[(r' ≤ ',' < '),(r' < ',' ≤ '),(r' ≥ ',' > '),(r' > ',' ≥ '),(r' = ',' ≠ '),(r' ≠ ',' = '),(r' == ',' != '),(r' != ',' == '),
     (r' && ',' || '),(r' \|\| ',' && '),(r' ∧ ',' ∨ '),(r' ∨ ',' ∧ '),(r'\btrue\b','false'),(r'\bfalse\b','true'),
     (r' \+ 1\b',' + 2'),(r' - 1\b',' - 0'),(r' \+ ',' - '),(r'\bif ','if ¬ '),(r'\.length\b','.length.succ'),
     (r'\b(\d+)\b',lambda m:str(int(m.group(1))+1)),(r'\bsome\b','none'),(r'\.reverse\b',''),
     (r' \+\+ [\w.]+',''),(r'[\w.]+ \+\+ ',''),(r':: ([\w.]+)$',r':: []')]
OPS2=[(r"\b([A-Za-z]\w*)'(?![\w'\"])",r'\1'),(r'\bthen ([^()]*?) else ([\w.\[\] ]+)$',r'then \2 else \1'),
      (r'\{ (\w+) with [^{}]*\}',r'\1'),(r'\b([a-z][\w.]*) ([a-z][\w.]*) ([a-z][\w.]*)\b',r'\1 \3 \2'),
      (r'^\s*let \w+ (:=|←).*$','')]
NEW=('World.lean','Memory.lean','TableHeap.lean','ParserHeap.lean','Examples.lean')
SET2=os.environ.get('AUTOMUT_SET')=='2'   # second sweep: dropped updates, swapped arguments; all operators on newer files
SET3=os.environ.get('AUTOMUT_SET')=='3'   # third sweep: all operators on the newest files
NEW3=('Foreign.lean','ForeignOp.lean','FromCstCost.lean','Stdout.lean','TableGenCost.lean','ToAstRaces.lean','WalkDepth.lean','WalkGraph.lean','TestReader.lean')
if SET2: W='/tmp/automut2'; DST=W+'/lean'
if SET3: W='/tmp/automut3'; DST=W+'/lean'
if os.environ.get('AUTOMUT_SET')=='4':   # fourth sweep: all operators on files written or changed since
    SET2=SET3=True; W='/tmp/automut4'; DST=W+'/lean'; NEW3=('ToAstGraph.lean','ToAstHeap.lean','ForeignText.lean','Examples.lean')
SET5=os.environ.get('AUTOMUT_SET')=='5'   # fifth sweep: all operators on Live/AnyReader; sampled: wrong variable, swapped ++, dropped push, take/drop on every file
OPS5=[(r'([\w.]+) \+\+ ([\w.]+)',r'\2 ++ \1'),(r'\b[\w.]+ :: (?=\w)',''),(r'\.take\b','.drop'),(r'\.drop\b','.take'),(r'\bmin\b','max'),
      (r'\b([1-9]\d*)\b',lambda m:str(int(m.group(1))-1)),(r'\bnone\b','(some default)'),(r'\bnot\b',''),(r'!(?=[\w(])','')]
if SET5: W='/tmp/automut5'; DST=W+'/lean'
SET6=os.environ.get('AUTOMUT_SET')=='6'   # sixth sweep: all operators on ToAstCalls, ByteSetShared, OpList
if SET6: W='/tmp/automut6'; DST=W+'/lean'
SET9=os.environ.get('AUTOMUT_SET')=='9'   # ninth sweep: all operators on TestDriver, TableText
SET8=SET9 or os.environ.get('AUTOMUT_SET')=='8'   # eighth sweep: all operators on StringCalls, TypeCalls
if SET8: W='/tmp/automut9' if SET9 else '/tmp/automut8'; DST=W+'/lean'
SET7=os.environ.get('AUTOMUT_SET')=='7'   # seventh sweep: conditions made constant, bodies of neighbouring arms swapped, list elements and statements dropped
if SET7: W='/tmp/automut7'; DST=W+'/lean'
OPS7=[(r'\bif (?!\w+ : )(.*?) then',r'if True then'),(r'\bif (?!\w+ : )(.*?) then',r'if False then'),(r'\bif (\w+) : (.*?) then',r'if \1 : False then'),
      (r'\[([^\[\],]+), ([^\[\]]+)\]',r'[\2]'),(r'\[([^\[\],]+), ([^\[\]]+)\]',r'[\1]'),(r'&& [^&|()]+',''),(r'\|\| [^&|()]+',''),(r'∧ [^∧∨()]+(?= then)',''),(r'∨ [^∧∨()]+(?= then)',''),
      (r'\.1\b','.2'),(r'\.2\b','.1'),(r'\.getD \S+$','.getD default')]
SKIP=re.compile(r'^\s*(--|/-|-/|import|namespace|end\b|open\b|deriving|structure|inductive|theorem|example|\||@\[)')
def gen():
    out=[]
    for f in sorted(os.listdir(SRC+'/Verif/Model')):
        if f in('Examples.lean',) and not SET2: continue
        if SET3 and f not in NEW3: continue
        ops=[o for o in OPS2+OPS if o[0]!=r'\bsome\b'] if SET3 else OPS if not SET2 else (OPS2+[o for o in OPS if o[0]!=r'\bsome\b'] if f in NEW else OPS2)
        if SET6 and f not in('ToAstCalls.lean','ByteSetShared.lean','OpList.lean'): continue
        if SET6: ops=OPS2+OPS+OPS5
        if SET8 and f not in(('TestDriver.lean','TableText.lean') if SET9 else ('StringCalls.lean','TypeCalls.lean')): continue
        if SET8: ops=OPS2+OPS+OPS5+OPS7
        if SET7: ops=OPS7
        if SET5: ops=OPS2+OPS+OPS5 if f in('Live.lean','AnyReader.lean') else OPS5
        incom=False; indef=False; L7=open(f'{SRC}/Verif/Model/{f}').read().split('\n')
        for i,l in enumerate(open(f'{SRC}/Verif/Model/{f}').read().split('\n')):
            s=l.strip()
            if s.startswith('/-'): incom=True
            if incom:
                if '-/' in s: incom=False
                continue
            if re.match(r'\s*(private |protected |@\[\w+\] )*(def|abbrev|instance)\b',l): indef=True
            elif re.match(r'\s*(private |protected |@\[\w+\] )*(theorem|example|inductive|structure|namespace|end|import|open)\b',l): indef=False
            if not indef or s.startswith('--') or not s: continue
            code=l.split('--')[0]
            if SET7 or SET8:
                m1=re.match(r'^(\s*\|.*? => )(\S.*)$',code); nx=L7[i+1].split('--')[0] if i+1<len(L7) else ''
                m2=re.match(r'^(\s*\|.*? => )(\S.*)$',nx)
                if m1 and m2 and m1.group(2)!=m2.group(2):
                    out.append(dict(file=f,line=i+1,old=l,new=m1.group(1)+m2.group(2)))
                    out.append(dict(file=f,line=i+2,old=L7[i+1],new=m2.group(1)+m1.group(2)))
            if SET5 or SET8:   # a wrong variable: replace one occurrence of a name by another name of the line
                ids=[m for m in re.finditer(r"(?<![\w.\"!])[a-z][\w']*(?![\w'!(])",code) if m.group() not in('if','then','else','match','with','let','fun','def','do','return','none','some','true','false','by','in','from','decide')]
                names=sorted(set(m.group() for m in ids))
                for m in ids:
                    for nm in names:
                        if nm!=m.group(): out.append(dict(file=f,line=i+1,old=l,new=code[:m.start()]+nm+code[m.end():],wv=1))
            for k,(a,b) in enumerate(ops):
                for m in re.finditer(a,code):
                    new=code[:m.start()]+m.expand(b) +code[m.end():] if isinstance(b,str) else code[:m.start()]+b(m)+code[m.end():]
                    # skip the `=` of let/have and `:=` types
                    if a==r'\b(\d+)\b' and re.search(r'[.\w]$',code[:m.start()]): continue
                    if new.rstrip()==code.rstrip(): continue
                    out.append(dict(file=f,line=i+1,old=l,new=new))
    if SET5 or SET7:
        import random
        random.seed(5); random.shuffle(out)
    seen=set();res=[]
    for o in out:
        key=(o['file'],o['line'],o['new'])
        if key in seen: continue
        seen.add(key);o['id']=f"{'J' if SET9 else 'H' if SET8 else 'G' if SET7 else 'F' if SET6 else 'E' if SET5 else 'D' if W.endswith('4') else 'C' if SET3 else 'B' if SET2 else 'A'}{len(res)+1:03d}";res.append(o)
    json.dump(res,open(W+'/list.json','w'),ensure_ascii=False,indent=0)
    print(len(res))
def build(targets,stop):
    p=subprocess.Popen(['lake','build']+targets,cwd=DST,stdout=subprocess.PIPE,stderr=subprocess.STDOUT,text=True,start_new_session=True)
    err=None
    for l in p.stdout:
        m=re.match(r'error: (Verif/[\w/]+\.lean):(\d+)',l)
        if m:
            err=(m.group(1),int(m.group(2)),l.strip()[:200])
            if stop:
                os.killpg(p.pid,signal.SIGKILL);break
    p.wait(); 
    return p.returncode,err
def enclosing(path,line):
    name='?'
    for i,l in enumerate(open(path),1):
        m=re.match(r'\s*(?:private |protected |@\[.*?\] )*(theorem|def|example|instance|abbrev)\s*([\w.\'₀-₉]*)',l)
        if m and i<=line: name=m.group(2) or f'example@{i}'
        if i>line: break
    return name
def run(n):
    res=W+'/results.jsonl'
    done=set(json.loads(l)['id'] for l in open(res)) if os.path.exists(res) else set()
    ms=json.load(open(W+'/list.json'))
    if not os.path.isdir(DST): subprocess.run(['cp','-a',SRC,DST],check=True)
    cnt=0
    for m in ms:
        if m['id'] in done: continue
        if cnt>=n: break
        cnt+=1
        f=f"{DST}/Verif/Model/{m['file']}"
        src=open(f"{SRC}/Verif/Model/{m['file']}").read()
        L=src.split('\n'); assert L[m['line']-1]==m['old']
        L[m['line']-1]=m['new']
        open(f,'w').write('\n'.join(L))
        t=time.time()
        rc,err=build(['Verif.Model.'+m['file'][:-5]],True)
        if rc!=0: v='invalid'
        else:
            rc,err=build([],True)
            v='SURVIVED' if rc==0 else 'detected'
            if rc!=0 and err and err[0].startswith('Verif/Model/'): v='detected-in-model'
        r=dict(m,definition=enclosing(f,m['line']),verdict=v,err=err[2] if err else None,
               theorem=(err[0][6:-5]+':'+enclosing(DST+'/'+err[0],err[1])) if err else None,seconds=round(time.time()-t))
        open(f,'w').write(src)
        open(res,'a').write(json.dumps(r,ensure_ascii=False)+'\n')
if __name__=='__main__':
    os.makedirs(W,exist_ok=True)
    if sys.argv[1]=='gen': gen()
    else: run(int(sys.argv[2]) if len(sys.argv)>2 else 10**9)
