#!/usr/bin/env python3
"""Translates the literal in /repo/pkg/bnf/selfgrammar.go (and the test grammars in
/repo/test/testgrammars/testgrammars.go) into Lean, symbol by symbol."""
import re, json
def parse_grammar_lines(lines, first):
    """returns list of (headname, headline, [ [ (kind, name, line) ] ])"""
    rules=[]; mode=None
    pend=None
    for k,l in enumerate(lines):
        n=first+k
        s=re.sub(r'^\s*//.*$','',l)
        if re.search(r'\bHead:',s): pend='head'; continue
        if re.search(r'Symbols:\s*\[\]',s):
            rules[-1][2].append([]); pend=None; continue
        if re.search(r'SymbolNothing\s*\{\s*\}',s): rules[-1][2][-1].append(('nothing',None,n)); continue
        if 'Sequences:' in s: continue
        if re.search(r'SymbolNonTerminal\s*\{',s) and pend!='head': pend='nonTerminal'; continue
        if re.search(r'SymbolTerminal\s*\{',s): pend='terminal'; continue
        m=re.match(r'^\s*Name:\s*("(?:\\.|[^"\\])*")\s*,\s*(//.*)?$',s)
        if m:
            name=json.loads(m.group(1))
            if pend=='head': rules.append((name,n,[]))
            else: rules[-1][2][-1].append((pend,name,n))
            pend=None
    return rules
def lean_str(s):
    out='b!"'
    for c in s:
        out+={'\n':'\\n','\r':'\\r','\t':'\\t','"':'\\"','\\':'\\\\'}.get(c,c)
    return out+'"'
def lean_grammar(rules):
    out=['{ rules := [']
    for i,(h,n,seqs) in enumerate(rules):
        out.append(f'  -- rule {i}, line {n}')
        ss=[]
        for q in seqs:
            ss.append('⟨['+', '.join('.nothing' if k=='nothing' else f'.{k} {lean_str(x)}' for k,x,_ in q)+']⟩')
        out.append(f'  ⟨{lean_str(h)}, ⟨[')
        cur='    '
        for j,t in enumerate(ss):
            t=t+(',' if j<len(ss)-1 else '')
            if len(cur)+len(t)>96: out.append(cur.rstrip()); cur='    '
            cur+=t+' '
        out.append(cur.rstrip()+']⟩⟩'+(',' if i<len(rules)-1 else ''))
    out.append('] }')
    return '\n'.join(out)
L=open('/repo/pkg/bnf/selfgrammar.go').read().split('\n')
st=next(i for i,l in enumerate(L) if l.startswith('func SelfGrammar'))
rules=parse_grammar_lines(L[st:],st+1)
with open('/verif/lean/Verif/Model/SelfGrammar.lean','w') as f:
    f.write('''import Verif.Model.Ast

/-!
# `pkg/bnf/selfgrammar.go`

Generated by `tools/gen_selfgrammar.py` from the Go literal, symbol by symbol.
-/

namespace LL1

/-- `SelfGrammar` — selfgrammar.go:58-1335. -/
def selfGrammar : Grammar :=
''')
    f.write(lean_grammar(rules))
    f.write('\n\nend LL1\n')
T=open('/repo/test/testgrammars/testgrammars.go').read().split('\n')
fn=[(i,re.match(r'^func (\w+)',l).group(1)) for i,l in enumerate(T) if l.startswith('func ')]
with open('/verif/lean/Verif/Golden/TestGrammars.lean','w') as f:
    f.write('''import Verif.Model.Ast

/-!
# `test/testgrammars/testgrammars.go`

Generated by `tools/gen_selfgrammar.py` from the Go literals.
-/

namespace LL1.Golden
''')
    for k,(i,name) in enumerate(fn):
        end=fn[k+1][0] if k+1<len(fn) else len(T)
        r=parse_grammar_lines(T[i:end],i+1)
        f.write(f'\n/-- `{name}` — testgrammars.go:{i+1}. -/\ndef {name[0].lower()+name[1:]} : Grammar :=\n'+lean_grammar(r)+'\n')
    f.write('\nend LL1.Golden\n')
print(len(rules),[ (h,len(s)) for h,_,s in rules])
