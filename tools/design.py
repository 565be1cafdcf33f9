#!/usr/bin/env python3
"""Source of /verif/DESIGN.md (python3 tools/design.py > DESIGN.md); reads properties.jsonl, MANIFEST.json, tools/axioms.json and the Lean sources."""
import json,re,glob,os
R=os.path.dirname(os.path.dirname(os.path.abspath(__file__)))
P=[json.loads(l) for l in open(R+'/properties.jsonl')]
M={c['property']:c for c in json.load(open(R+'/MANIFEST.json'))['claims']}
where={}
for f in sorted(glob.glob(R+'/lean/Verif/Props/*.lean')):
    for m in re.finditer(r'^(?:theorem|lemma) (\S+)',open(f).read(),re.M): where.setdefault(m.group(1),os.path.basename(f)[:-5])
HOW={}
for l in open(R+'/tools/how.txt'):
    m=re.match(r'(C\d+)\s*\|\s*(.*?)\s*\|\s*(.*)$',l.strip())
    if m: HOW[m.group(1)]=(m.group(2),m.group(3))
print(open(R+'/tools/design_head.md').read().rstrip()+'\n')
print('## 4. Property by property\n')
print('What is modelled, how it is proved, and in which file of `lean/Verif/Props/` the theorems are. Status as in MANIFEST.json.\n')
print('| Property | Status | Modelled | Proof | Theorems in |\n|---|---|---|---|---|')
for d in P:
    i=d['id'];c=M.get(i,{'status':'?','theorems':[]})
    fs=sorted({where.get(t.split('.')[-1],'?') for t in c['theorems']})
    a,b=HOW.get(i,('?','?'))
    print(f"| {i} {d['title']} | {c['status']} | {a} | {b} | {', '.join(fs)} |")
print('\n## 5. What the proofs found\n')
print('For every property below the unchanged code violates the English statement. The negation is proved with a general or concrete witness (`..._fails`, `..._hangs`, `..._never_ends`), and next to it what does hold (`..._partial`), in most cases the exact behaviour (`..._exact`).\n')
for d in P:
    c=M.get(d['id'])
    if c and c['status']=='partial': print(f"* **{d['id']} {d['title']}.** {c['note'][:1].upper()+c['note'][1:]}.")
print('\n## 6. Axioms each theorem depends on\n')
print('From `#print axioms` for every theorem in MANIFEST.json (`tools/axioms.py`). No theorem depends on anything else.\n')
for k,v in json.load(open(R+'/tools/axioms.json')).items():
    print(f"* **{k}** ({len(v)}): "+', '.join(v)+'\n')
