#!/usr/bin/env python3
"""Translates /repo/examples/json/json.bnf into Lean: the text, the grammar it stands for, and the layout
(quotes and numbers of blanks) that connects the two.  Lean checks that rendering the layout gives the text."""
import sys
sys.path.insert(0,'/verif/tools')
def lean_str(s):
    return 'b!"'+''.join({'\n':'\\n','\r':'\\r','\t':'\\t','"':'\\"','\\':'\\\\'}.get(c,c) for c in s)+'"'
text=open('/repo/examples/json/json.bnf',newline='').read()
ESC={'t':'\t','n':'\n','r':'\r','"':'"','\\':'\\'}
def parse_line(l):
    i=0
    def blanks():
        nonlocal i
        k=0
        while i<len(l) and l[i]==' ': i+=1; k+=1
        return k
    assert l[0]=='<'; j=l.index('>'); head=l[1:j]; i=j+1
    k=blanks(); assert l[i:i+3]=='::='; i+=3; m=blanks()
    alts=[]; bars=[]
    while True:
        seq=[]
        while i<len(l) and l[i]!='|':
            if l[i]=='<':
                j=l.index('>',i); s=('nonTerminal',l[i+1:j],34); i=j+1
            else:
                q=l[i]; i+=1; name=''
                while l[i]!=q:
                    if l[i]=='\\': name+=ESC[l[i+1]]; i+=2
                    else: name+=l[i]; i+=1
                i+=1
                s=('terminal' if name else 'nothing',name,ord(q))
            seq.append(s+(blanks(),))
        alts.append(seq)
        if i==len(l): break
        i+=1; bars.append(blanks())
    return head,k,m,alts,bars
assert text.endswith('\n')
lines=text[:-1].split('\n')
rules=[(n+1,)+parse_line(l) for n,l in enumerate(lines)]
def wrap(items,ind,end):
    out=[]; cur=ind
    for j,t in enumerate(items):
        t=t+(',' if j<len(items)-1 else '')
        if len(cur)+len(t)>100: out.append(cur.rstrip()); cur=ind
        cur+=t+' '
    out.append(cur.rstrip()+end)
    return '\n'.join(out)
def sym(s):
    return '.nothing' if s[0]=='nothing' else f'.{s[0]} {lean_str(s[1])}'
g=[]
for (n,h,k,m,alts,bars) in rules:
    g.append(f'  -- rule {n-1}, json.bnf:{n}\n  ⟨{lean_str(h)}, ⟨[\n'+wrap(['⟨['+', '.join(sym(s) for s in a)+']⟩' for a in alts],'    ',']⟩⟩'))
lay=[]
for (n,h,k,m,alts,bars) in rules:
    al=wrap([f'⟨{b}, ['+', '.join(f'({s[2]}, {s[3]})' for s in a)+']⟩' for a,b in zip(alts,[0]+bars)],'    ',']⟩')
    lay.append(f'  ⟨{k}, {m}, [\n'+al)
with open('/verif/lean/Verif/Golden/Json.lean','w') as f:
    f.write('''import Verif.Model.Ast

/-!
# `examples/json/json.bnf`

Generated by `tools/gen_json.py`: the text of the file, the grammar it stands for (a separate reading by
the script), and the layout that turns the grammar into the text.
-/

namespace LL1.Golden

''')
    f.write('/-- The contents of examples/json/json.bnf. -/\ndef jsonBnfText : Str :=\n')
    f.write(' ++\n'.join('  '+lean_str(l+'\n') for l in lines)+'\n\n')
    f.write('/-- The grammar written in examples/json/json.bnf. -/\ndef jsonGrammar : Grammar :=\n{ rules := [\n'+',\n'.join(g)+'\n] }\n\n')
    f.write('''/-- How one alternative is laid out: blanks before it (after `|`), then for each symbol the quote used
(for literals) and the number of blanks after it. -/
structure AltLayout where
  before : Nat
  symbols : List (UInt8 × Nat)

/-- How a rule is laid out: blanks before and after `::=`, then the alternatives. -/
structure RuleLayout where
  before : Nat
  after : Nat
  alts : List AltLayout

/-- The layout of examples/json/json.bnf. -/
def jsonLayout : List RuleLayout := [
''')
    f.write(',\n'.join(lay)+']\n\nend LL1.Golden\n')
