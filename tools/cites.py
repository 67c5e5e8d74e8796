"""List every file:line citation in the Lean sources with the first cited source line (for review)."""
import re,glob,sys
root='/repo/folx/'
files={}
import os
for d,_,fs in os.walk(root):
    for f in fs:
        if f.endswith('.py'): files.setdefault(f,[]).append(os.path.join(d,f))
for p in sorted(glob.glob('/verif/lean/Verif/**/*.lean',recursive=True)):
    for no,l in enumerate(open(p),1):
        for m in re.finditer(r'((?:experimental/)?\w+\.py):([0-9,:-]+)',l):
            fn=m.group(1)
            c=[q for q in sum(files.values(),[]) if q.endswith('/'+fn)]
            c.sort(key=len)
            if not c: print(p,no,m.group(0),'NOFILE'); continue
            src=open(c[0]).read().split('\n')
            for r in re.findall(r'\d+(?:-\d+)?',m.group(2)):
                a=int(r.split('-')[0]); b=int(r.split('-')[-1])
                if b>len(src): print(p,no,m.group(0),'OUT OF RANGE'); continue
                print(f"{p[len('/verif/lean/Verif/'):]}:{no} {fn}:{r} | {src[a-1].strip()[:70]} … {src[b-1].strip()[:50]}")
