"""Lists the citations of the models with the first and last cited line of the source, for review."""
import re,sys,glob,os
files=glob.glob('/repo/**/*.py',recursive=True)
def find(n):
    c=[f for f in files if f.endswith('/'+n)]
    if n in('reader.py','parallel.py','postproc.py','io.py','weights.py','errors.py'): c=[f for f in files if f.endswith('pyspod/utils/'+n)]
    elif n in('standard.py','streaming.py'): c=[f for f in files if f.endswith('pyspod/spod/'+n)]
    elif n=='base.py': c=[f for f in files if f.endswith('pyspod/spod/base.py')]
    elif n=='neural_nets.py': c=[f for f in files if f.endswith('emulation/neural_nets.py')]
    return c
for m in sys.argv[1:]:
    s=open(m).read()
    print('=====',m)
    for d in re.finditer(r'/-[-!]?(.*?)-/\s*\n([^\n]*)',s,re.S):
        doc=' '.join(d.group(1).split()); code=d.group(2).strip()
        cs=re.findall(r'([\w/]*\w+\.py):([\d,\- ]+\d|\d+)',doc)
        print('*',code[:90]); print('   ',doc[:220])
        for f,l in cs:
            c=find(f)
            if len(c)!=1: print('    ??',f,c); continue
            L=open(c[0]).read().split('\n')
            for a in l.split(','):
                a=a.strip()
                if not a: continue
                x=a.split('-')
                lo=int(x[0]); hi=int(x[-1]) if x[-1] else lo
                if lo>len(L): print("    !!",f,a); continue
                print(f'      {f}:{a}| {L[lo-1].strip()[:70]} ... {L[hi-1].strip()[:60] if hi!=lo and hi<=len(L) else ""}')
