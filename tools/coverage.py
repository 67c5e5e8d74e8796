#!/usr/bin/env python3
"""Which functions of /repo/folx have no citation `file.py:a-b` in the Lean model; also checks that cited lines exist."""
import ast, glob, os, re, sys
R='/repo/folx'
files={os.path.relpath(f,R):f for f in glob.glob(R+'/**/*.py',recursive=True)}
base={}
for k in files: base.setdefault(os.path.basename(k),[]).append(k)
cites={k:[] for k in files}
for f in glob.glob('/verif/lean/Verif/**/*.lean',recursive=True):
    t=open(f).read()
    last=None
    for m in re.finditer(r'((?:[\w/]+/)?\w+\.py):(\d+)(?:-(\d+))?((?:,\s*`?:?\d+(?:-\d+)?)*)|`:(\d+)(?:-(\d+))?',t):
        if m.group(1):
            n=m.group(1)
            c=[k for k in files if k==n or k.endswith('/'+n) or os.path.basename(k)==n or ('folx/'+k)==n]
            if not c: continue
            last=c[0]; a=int(m.group(2)); b=int(m.group(3) or a)
            for e in re.finditer(r'(\d+)(?:-(\d+))?',m.group(4) or ''): cites[last].append((int(e.group(1)),int(e.group(2) or e.group(1)),f))
        elif last: a=int(m.group(5)); b=int(m.group(6) or a)
        else: continue
        cites[last].append((a,b,f))
for k,f in sorted(files.items()):
    src=open(f).read(); n=src.count('\n')+1
    for a,b,w in cites[k]:
        if b>n or a>b: print('BAD',k,a,b,w)
    for node in ast.walk(ast.parse(src)):
        if isinstance(node,(ast.FunctionDef,ast.ClassDef)):
            lo=min([d.lineno for d in node.decorator_list]+[node.lineno]); hi=node.end_lineno
            if not any(a<=hi and b>=lo for a,b,_ in cites[k]): print('none',k,node.name,lo,hi)
