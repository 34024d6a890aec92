#!/usr/bin/env python3
"""Translates the reference tables /repo/test/bnftablegen/*.bin (Go %#v output of FromGrammar) into Lean."""
import re,json
def parse(fn):
    s=open(fn).read(); pos=0
    rows=[]
    for m in re.finditer(r'(\d+):map\[uint8\]\[\]parser\.ParserOp\{((?:[^{}"]|"(?:\\.|[^"\\])*"|\{(?:[^{}"]|"(?:\\.|[^"\\])*"|\{(?:[^{}"]|"(?:\\.|[^"\\])*")*\})*\})*)\}',s):
        row=[]
        body=m.group(2)
        for c in re.finditer(r'0x([0-9a-f]+):\[\]parser\.ParserOp\{((?:[^{}"]|"(?:\\.|[^"\\])*"|\{(?:[^{}"]|"(?:\\.|[^"\\])*")*\})*)\}',body):
            ops=[]
            for o in re.finditer(r'parser\.(terminal_t\{value:("(?:\\.|[^"\\])*")\}|nonTerminal_t\{name:(-?\d+)\})',c.group(2)):
                if o.group(2): ops.append(('t',json.loads(o.group(2))))
                else: ops.append(('n',int(o.group(3))))
            row.append((int(c.group(1),16),ops))
        rows.append((int(m.group(1)),row))
    # re-render and compare with the file: the translation loses nothing
    def r(o):
        if o[0]=='n': return 'parser.nonTerminal_t{name:%d}'%o[1]
        return 'parser.terminal_t{value:%s}'%json.dumps(o[1])
    txt='map[int]map[uint8][]parser.ParserOp{'+', '.join('%d:map[uint8][]parser.ParserOp{%s}'%(i,', '.join('0x%x:[]parser.ParserOp{%s}'%(b,', '.join(map(r,ops))) for b,ops in row)) for i,row in rows)+'}'
    assert txt==s,(txt[:300],s[:300])
    return rows
def ls(s):
    return 'b!"'+''.join({'\n':'\\n','\r':'\\r','\t':'\\t','"':'\\"','\\':'\\\\'}.get(c,c) for c in s)+'"'
def lean(rows):
    out=[]
    for i,row in rows:
        cells=['(%d, [%s])'%(b,', '.join('.nonTerminal %d'%o[1] if o[0]=='n' else '.terminal '+ls(o[1]) for o in ops)) for b,ops in row]
        o='  (%d, ['%i; cur=o; lines=[]
        for k,c in enumerate(cells):
            c+=',' if k<len(cells)-1 else ''
            if len(cur)+len(c)>96: lines.append(cur.rstrip()); cur='    '
            cur+=c+' '
        lines.append(cur.rstrip()+'])')
        out.append('\n'.join(lines))
    return '[\n'+',\n'.join(out)+']'
D='/repo/test/bnftablegen/'
with open('/verif/lean/Verif/Golden/Tables.lean','w') as f:
    f.write('''import Verif.Model.Parser

/-!
# Reference tables of the repository

Generated by `tools/gen_golden.py` from `/repo/test/bnftablegen/*.bin`: the tables the real
`FromGrammar` printed (`%#v`) when the reference files were recorded.
-/

namespace LL1.Golden
''')
    for name,fn in [('linearMultiRuleTable','refTestLinearMultiRuleGrammarToParsingTableResTable.bin'),('orTable','refTestOrGrammarToParsingTableResTable.bin'),('resolvedLRecursiveTable','refTestResolvedLRecursiveGrammarToParsingTableResTable.bin'),('selfTable','refTestBNFGrammarToParsingTableResTable.bin')]:
        f.write(f'\n/-- `{fn}` -/\ndef {name} : Table := '+lean(parse(D+fn))+'\n')
    f.write('\nend LL1.Golden\n')
