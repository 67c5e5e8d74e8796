import ast,glob,os,re
R='/repo/folx'
tops={}
src={}
for f in glob.glob(R+'/**/*.py',recursive=True):
    k=os.path.relpath(f,R); src[k]=open(f).read().split('\n')
    L=[]
    def rec(body,depth):
        for n in body:
            if isinstance(n,(ast.FunctionDef,ast.ClassDef)):
                lo=min([d.lineno for d in n.decorator_list]+[n.lineno]); L.append((n.name,lo,n.end_lineno,depth))
                if depth<1: rec(n.body,depth+1)
    rec(ast.parse(open(f).read()).body,0); tops[k]=L
seen={}
for f in sorted(glob.glob('/verif/lean/Verif/**/*.lean',recursive=True)):
    t=open(f).read()
    last=None
    for m in re.finditer(r'((?:[\w/]+/)?\w+\.py):(\d+)(?:-(\d+))?|`:(\d+)(?:-(\d+))?`',t):
        if m.group(1):
            c=[k for k in tops if k==m.group(1) or 'folx/'+k==m.group(1) or os.path.basename(k)==m.group(1)]
            if not c: continue
            last=c[0]; a=int(m.group(2)); b=int(m.group(3) or a)
        elif last: a=int(m.group(4)); b=int(m.group(5) or a)
        else: continue
        L=tops[last]; n=len(src[last])
        bad=None
        if b>n: bad='beyond'
        else:
            # ends strictly inside a function that starts after a, or begins strictly inside a function that ends before b
            for nm,lo,hi,d in L:
                if d==0 and lo<a-1<hi and hi<b-1 and a-lo>2: bad='leaves '+nm
                if d==0 and a<lo-1 and lo<b<hi-1: bad='enters '+nm
            if not src[last][a-1].strip() : bad=(bad or '')+' blank-start'
        if bad: seen.setdefault((last,a,b,bad),[]).append(os.path.relpath(f,'/verif/lean/Verif'))
for k in sorted(seen): print(*k,sorted(set(seen[k])))
