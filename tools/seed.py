#!/usr/bin/env python3
"""Seeded-bug runner. usage: seed.py mutations.json
Each entry: {definition, file, old, new, edit, claim, target}. Works in /tmp/scratch (copy of /verif/lean),
builds `target` (a Props module), appends a line to /verif/seeded/LOG.jsonl."""
import json,subprocess,sys,re,os,shutil
SC='/tmp/scratch'
if not os.path.exists(SC): subprocess.run(['cp','-r','/verif/lean',SC],check=True)
subprocess.run(['rsync','-a','--delete','--exclude','.lake','/verif/lean/',SC+'/'],check=False) if shutil.which('rsync') else subprocess.run('cp -r -u /verif/lean/. '+SC+'/',shell=True)
muts=json.load(open(sys.argv[1]))
def name_at(path,line):
    ls=open(path).read().split('\n')
    for i in range(min(line,len(ls))-1,-1,-1):
        m=re.match(r'(?:private )?(?:theorem|lemma|def|example|structure|instance)\s*([^\s:({\[]*)',ls[i])
        if m: return m.group(1) or 'example'
    return '?'
for m in muts:
    p=f"{SC}/{m['file']}"; s=open(p).read()
    if s.count(m['old'])<1: print('NOT FOUND',m['edit']); continue
    open(p,'w').write(s.replace(m['old'],m['new'],1))
    r=subprocess.run(['timeout','1500','lake','build']+m['target'].split(),cwd=SC,capture_output=True,text=True)
    out=r.stdout+r.stderr
    fails=[]
    for mm in re.finditer(r'error: ([\w/]+\.lean):(\d+):',out):
        n=name_at(f"{SC}/{mm.group(1)}",int(mm.group(2)))
        if n not in fails: fails.append(n)
    refuted=None
    if m.get('oracle'):
        src=open(f"/verif/tools/oracle/{m['oracle']}.lean.txt").read()
        mods=re.findall(r'^import (Verif\S+)',src,re.M)
        subprocess.run(['lake','build']+mods,cwd=SC,capture_output=True)
        open('/tmp/oracle.lean','w').write(src)
        o=subprocess.run(['timeout','600','lake','env','lean','/tmp/oracle.lean'],cwd=SC,capture_output=True,text=True)
        mm=re.search(r'ORACLE \[(.*)\]',o.stdout)
        refuted=[x.strip() for x in mm.group(1).split(',') if x.strip()] if mm else ['oracle failed: '+o.stdout[:200]]
    open(p,'w').write(s)
    rec={'definition':m['definition'],'edit':m['edit'],'claim':m['claim'],'theorems_failed':fails,'theorems_tightened':m.get('tightened',[]),'built':r.returncode==0}
    if refuted is not None: rec['claims_false_on_sample_runs']=refuted
    print(json.dumps(rec),flush=True)
    if len(sys.argv)>2: continue
    with open('/verif/seeded/LOG.jsonl','a') as f: f.write(json.dumps(rec)+'\n')
