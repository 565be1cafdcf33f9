import json,re,subprocess,glob
M=json.load(open('/verif/MANIFEST.json'))
th=[]
for c in M['claims']:
    for t in c['theorems']:
        if t not in th: th.append(t)
src="import Verif\n"+"".join(f"#print axioms {t}\n" for t in th)
open('/tmp/ax.lean','w').write(src)
o=subprocess.run(['lake','env','lean','/tmp/ax.lean'],cwd='/verif/lean',capture_output=True,text=True).stdout
o=o.replace('\n ',' ')
d={}
for l in o.split('\n'):
    m=re.match(r"'(\S+)' depends on axioms: \[(.*)\]",l)
    if m: d.setdefault(m.group(2),[]).append(m.group(1).split('.')[-1]); continue
    m=re.match(r"'(\S+)' does not depend",l)
    if m: d.setdefault('none',[]).append(m.group(1).split('.')[-1])
json.dump(d,open('/verif/tools/axioms.json','w'),indent=0)
for k,v in d.items(): print(k,len(v))
