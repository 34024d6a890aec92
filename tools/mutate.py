#!/usr/bin/env python3
"""Mutation testing of the theorems.  Works in a scratch copy (/tmp/mut); never touches /verif/lean.

usage: mutate.py MUTANTS.py [id ...]      results are appended to /verif/seeded/LOG.jsonl

A mutant is a dict: id, file (under Verif/), old, new, definition, claim (list of property ids it breaks),
why, falsify (Lean text checked against the edited model only: a concrete instance of the property's
statement that the edited program violates)."""
import sys, os, re, json, subprocess, shutil, time, runpy
SRC=os.environ.get('MUT_SRC','/verif/lean'); DST='/tmp/mut'; LOG='/verif/seeded/LOG.jsonl'

def sync():
    os.makedirs(DST, exist_ok=True)
    subprocess.run(['rsync','-a','--delete','--exclude','.lake',SRC+'/',DST+'/'],check=True) if shutil.which('rsync') else None
    if not shutil.which('rsync'):
        for d in ('Verif',):
            shutil.rmtree(f'{DST}/{d}',ignore_errors=True)
            shutil.copytree(f'{SRC}/{d}',f'{DST}/{d}')
        for f in os.listdir(SRC):
            if os.path.isfile(f'{SRC}/{f}'): shutil.copy2(f'{SRC}/{f}',f'{DST}/{f}')
    if not os.path.isdir(f'{DST}/.lake'):
        subprocess.run(['cp','-a',f'{SRC}/.lake',f'{DST}/.lake'],check=True)

def enclosing(path,line):
    name='?'
    ns=[]
    for i,l in enumerate(open(path),1):
        m=re.match(r'\s*(?:private |protected |@\[.*?\] )*(theorem|def|example|instance|abbrev)\s*([\w.\'₀-₉]*)',l)
        if m and i<=line: name=m.group(2) or f'example@{i}'
        if i>line: break
    return name

def lake(targets):
    p=subprocess.run(['lake','build']+targets,cwd=DST,capture_output=True,text=True,timeout=3600)
    return p.returncode,p.stdout+p.stderr

def main():
    ms=runpy.run_path(sys.argv[1])['MUTANTS']; want=set(sys.argv[2:])
    allmods=[]
    for m in ms:
        if want and m['id'] not in want: continue
        sync()
        f=f"{DST}/Verif/{m['file']}"
        s=open(f).read()
        assert s.count(m['old'])>=1,(m['id'],'old text not found')
        assert s.count(m['old'])==1 or m.get('all'),(m['id'],'old text not unique',s.count(m['old']))
        s=s.replace(m['old'],m['new'])
        open(f,'w').write(s)
        t0=time.time()
        fals=None
        if m.get('falsify'):
            open(f'{DST}/Verif/Falsify.lean','w').write(m['falsify'])
            rc,out=lake(['Verif.Falsify'])
            fals = rc==0
            falsout='' if fals else out[-1500:]
            os.remove(f'{DST}/Verif/Falsify.lean')
        lake(['Verif.Model.ByteSet','Verif.Model.Cst','Verif.Model.Concurrent','Verif.Model.TableGen','Verif.Model.FromCst',
              'Verif.Model.SelfGrammar','Verif.Spec.Derivation','Verif.Spec.Bnf','Verif.Spec.ToAst','Verif.Spec.Messages','Verif.Golden.Tables','Verif.Golden.TestGrammars'])
        pf=f'/tmp/Probe_{os.getpid()}.lean'
        shutil.copy('/verif/tools/probe.lean.txt',pf)
        try:
            pr=subprocess.run(['lake','env','lean',pf],cwd=DST,capture_output=True,text=True,timeout=600)
            probes=sorted(set(re.findall(r'PROBE-FAIL (C\d+)',pr.stdout)))
            if 'error' in pr.stdout+pr.stderr: probes.append('(probe file did not compile)')
        except subprocess.TimeoutExpired: probes=['timeout']
        rc,out=lake([])
        failed=[]
        for mm in re.finditer(r'^error: (Verif/[\w/]+\.lean):(\d+):\d+',out,re.M):
            n=enclosing(f'{DST}/{mm.group(1)}',int(mm.group(2)))
            e=f"{mm.group(1)[6:-5]}:{n}"
            if e not in failed: failed.append(e)
        # modules that could not be built because of a failed import
        built=set(re.findall(r'[✔ℹ⚠] \[\d+/\d+\] (?:Built|Replayed|Building) (Verif[\w.]*)',out))
        allm=set()
        for root,_,fs in os.walk(f'{DST}/Verif'):
            for x in fs:
                if x.endswith('.lean'):
                    allm.add('Verif.'+os.path.relpath(os.path.join(root,x),f'{DST}/Verif')[:-5].replace('/','.'))
        bad=set(re.findall(r'✖ \[\d+/\d+\] Building (Verif[\w.]*)',out))
        # transitive dependents of bad
        imp={}
        for x in allm:
            p=f"{DST}/{x.replace('.','/')}.lean"
            imp[x]=set(re.findall(r'^import (Verif[\w.]*)',open(p).read(),re.M))
        dep=set(bad)
        ch=True
        while ch:
            ch=False
            for x in allm-dep:
                if imp[x]&dep: dep.add(x); ch=True
        lost=[]
        for x in sorted(dep-bad):
            if '.Props.' in x:
                for t in re.findall(r'^theorem (C\d+\w*)',open(f"{DST}/{x.replace('.','/')}.lean").read(),re.M): lost.append(t)
        rec={'id':m['id'],'definition':m['definition'],'edit':f"{m['old'].strip()}  ==>  {m['new'].strip()}",
             'claim_broken':m['claim'],'why':m.get('why',''),
             'theorems_failed':failed,'theorems_unbuilt_because_a_dependency_failed':lost,
             'statement_falsified_on_concrete_instance':fals,'property_instances_false_of_the_edited_program':probes,
             'verdict':'detected' if rc!=0 else 'SURVIVED',
             'theorems_tightened':m.get('tightened',[]),'note':m.get('note',''),'seconds':round(time.time()-t0)}
        if fals is False: rec['falsify_output']=falsout
        if not m.get('dry'):
            with open(LOG,'a') as g: g.write(json.dumps(rec)+'\n')
        print(m['id'],rec['verdict'],'falsified=',fals,'probes=',' '.join(probes),failed[:6],len(lost),rec['seconds'],'s',flush=True)
        if fals is False: print(falsout)
if __name__=='__main__': main()
