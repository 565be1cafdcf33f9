#!/usr/bin/env python3
"""Mutation driver: applies each edit of a JSON-lines list to a scratch copy of lean/, rebuilds, and reports which
theorems fail.  usage: mutate.py edits.jsonl [scratch]  (prints one JSON line per edit)"""
import sys, json, re, subprocess, os
src=os.environ.get('MUT_BASE','/verif/lean'); scratch=sys.argv[2] if len(sys.argv)>2 else '/tmp/mut/lean'
def enclosing(path, line):
    name=None
    for i,l in enumerate(open(path),1):
        if i>line: break
        m=re.match(r'\s*(?:private\s+|noncomputable\s+|@\[[^\]]*\]\s*)*(theorem|lemma|def|example|instance)\b\s*(\S*)',l)
        if m: name=(m.group(2) if m.group(1)!='example' else 'example@%d'%i)
    return name
for raw in open(sys.argv[1]):
    if not raw.strip(): continue
    e=json.loads(raw)
    f=f"{scratch}/Verif/{e['file']}"
    orig=open(f"{src}/Verif/{e['file']}").read()
    if orig.count(e['old'])<1:
        print(json.dumps({**e,'result':'NOT FOUND'}),flush=True); continue
    n=e.get('nth',0)
    parts=orig.split(e['old'])
    new=e['old'].join(parts[:n+1])+e['new']+e['old'].join(parts[n+1:])
    open(f,'w').write(new)
    p=subprocess.run(['lake','build'],cwd=scratch,capture_output=True,text=True)
    out=p.stdout+p.stderr
    errs=set(); modelerr=False
    for m in re.finditer(r'error: (Verif/\S+?\.lean):(\d+):\d+',out):
        if m.group(1).startswith('Verif/Model') or m.group(1)=='Verif/Nd.lean': modelerr=True
        t=enclosing(f"{scratch}/{m.group(1)}",int(m.group(2)))
        errs.add(os.path.basename(m.group(1))[:-5]+':'+str(t))
    open(f,'w').write(orig)
    print(json.dumps({'definition':e['def'],'file':e['file'],'edit':f"{e['old'].strip()} -> {e['new'].strip()}",'claim':e['claim'],'failed':sorted(errs),'model_error':modelerr,'built':p.returncode==0},ensure_ascii=False),flush=True)
