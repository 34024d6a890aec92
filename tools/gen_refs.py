#!/usr/bin/env python3
"""Translates the parser and tree reference files of /repo/test into Lean (Golden/Refs.lean)."""
import re
def ls(s):
    return 'b!"'+''.join({'\n':'\\n','\r':'\\r','\t':'\\t','"':'\\"','\\':'\\\\'}.get(c,c) for c in s)+'"'
R='/repo/test/'
# --- the literal tree of cst_test.go
src=open(R+'cst/cst_test.go').read()
src=re.sub(r'//[^\n]*','',src)
i=src.index('tree := cst.NewNode(')+len('tree := ')
toks=re.findall(r'cst\.NewNode|\[\]cst\.Node|nil|-?\d+|[(){},]',src[i:])
pos=0
def eat(t):
    global pos
    assert toks[pos]==t,(toks[pos-5:pos+5],t); pos+=1
def node():
    global pos
    eat('cst.NewNode'); eat('(')
    v=[]
    for _ in range(3):
        v.append(int(toks[pos])); pos+=1; eat(',')
    cs=[]
    if toks[pos]=='nil': pos+=1
    else:
        eat('[]cst.Node'); eat('{')
        while toks[pos]!='}':
            cs.append(node()); eat(',')
        eat('}')
    if toks[pos]==',': pos+=1
    eat(')')
    return v,cs
tree=node()
def lean(n,ind):
    (t,s,e),cs=n
    if not cs: return f'{"  "*ind}.mk {t if t>=0 else f"({t})"} {s} {e} []'
    return f'{"  "*ind}.mk {t if t>=0 else f"({t})"} {s} {e} [\n'+',\n'.join(lean(c,ind+1) for c in cs)+']'
names=re.search(r'typeNames := map\[int\]string \{(.*?)\}',src,re.S).group(1)
names=re.findall(r'(-?\d+):\s*"([^"]*)"',names)
string=re.search(r'str := "((?:\\.|[^"\\])*)"',src).group(1).replace('\\"','"')
# --- parser references
cases=[('or','refTestOrParserParse1','"B^'),('or','refTestOrParserParse2','"^'),
 ('resolvedLRecursive','refTestResolvedLRecursiveParserParse1','_B'),('resolvedLRecursive','refTestResolvedLRecursiveParserParse2','_'),
 ('resolvedLRecursive','refTestResolvedLRecursiveParserParse3','_BBBBBBB'),('linearMultiRule','refTetsLinearMultiRuleParserParse1','A::=C')]
pt=open(R+'parser/parser_test.go').read()
errs=re.findall(r'input: "((?:\\.|[^"\\])*)",\s*output: ParserTestCaseOutput\{\s*err: fmt.Errorf\(\s*"((?:\\.|[^"\\])*)"\)',pt)
def lit(s): return '"'+s.replace('\\','\\\\').replace('"','\\"')+'"'
with open('/verif/lean/Verif/Golden/Refs.lean','w') as f:
    f.write('''import Verif.Model.TestTools

/-!
# Reference outputs of the repository's parser and tree tests

Generated by `tools/gen_refs.py` from `/repo/test/parser` and `/repo/test/cst`.
-/

namespace LL1.Golden

/-- The tree in `TestFprintTreeNamed` (test/cst/cst_test.go). -/
def testTree : Node :=
'''+lean(tree,1)+f'''

/-- `typeNames` there. -/
def testTreeNames : Names := [{', '.join(f'({k}, {ls(v)})' for k,v in names)}]

/-- `str` there. -/
def testTreeText : Str := {ls(string)}

/-- `refTestFprintTreeNamed.bin`. -/
def testTreePrinted : Str :=
''')
    lines=open(R+'cst/refTestFprintTreeNamed.bin').read().split('\n')
    assert lines[-1]==''
    f.write('  '+' ++ (\n  '.join(ls(l+'\n') for l in lines[:-1])+')'*(len(lines)-2)+'\n')
    f.write('''
/-- Grammar, input, printed tree (`%v`), printed names map (`%v`). -/
def parserRefs : List (String × Str × Str × Str) := [
''')
    f.write(',\n'.join(f'  ("{g}", {ls(inp)},\n    {ls(open(R+"parser/"+fn+"0.bin").read())},\n    {ls(open(R+"parser/"+fn+"1.bin").read())})' for g,fn,inp in cases))
    f.write(''']

/-- Input and error message for the grammar `linearMultiRule`. -/
def parserErrors : List (Str × Str) := [
''')
    f.write(',\n'.join(f'  ({ls(a)}, {ls(b)})' for a,b in errs))
    f.write(']\n\nend LL1.Golden\n')
print(len(cases),len(errs))
