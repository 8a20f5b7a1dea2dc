#!/usr/bin/env python3
"""Runs one batch of seeded bugs against a scratch copy of the Lean project.

usage: mutate.py batch.json     (list of {file, definition, old, new, claim, tightened?, targets?}; only the targets are rebuilt, if given)
For each: apply the edit in /tmp/mut/lean, build, record which theorems no longer check.
"""
import json,os,re,subprocess,sys
SRC='/verif/lean';DST='/tmp/mut/lean'
def sync():
    subprocess.run('rm -rf %s/Verif && cp -a %s/Verif %s/Verif'%(DST,SRC,DST),shell=True,check=True)
    subprocess.run(['cp',SRC+'/Verif.lean',DST+'/Verif.lean'],check=True)
def build(targets=[]):
    r=subprocess.run(['lake','build']+targets,cwd=DST,stdout=subprocess.PIPE,stderr=subprocess.STDOUT,text=True)
    return r.stdout
def encl(f,line):
    ls=open(f).read().split('\n')
    for i in range(min(line,len(ls))-1,-1,-1):
        m=re.match(r'(?:private )?(theorem|def|example|instance|abbrev|lemma)\s*(\S+)?',ls[i])
        if m: return m.group(2) if m.group(1)!='example' else 'example@%d'%(i+1)
    return '?'
def imports(mod,cache={}):
    f=DST+'/'+mod.replace('.','/')+'.lean'
    if not os.path.exists(f): return set()
    return {m for m in re.findall(r'^import (Verif\S*)',open(f).read(),re.M)}
def blocked(failed):
    mods=[]
    for d,_,fs in os.walk(DST+'/Verif'):
        for f in fs:
            if f.endswith('.lean'): mods.append(os.path.relpath(os.path.join(d,f),DST)[:-5].replace('/','.'))
    bad=set(failed);ch=True
    while ch:
        ch=False
        for m in mods:
            if m not in bad and imports(m)&bad: bad.add(m);ch=True
    return sorted(bad-set(failed))
for b in json.load(open(sys.argv[1])):
    sync()
    p=DST+'/Verif/'+b['file'];s=open(p).read()
    if s.count(b['old'])<1: print('NO MATCH',b);continue
    open(p,'w').write(s.replace(b['old'],b['new'],1))
    out=build(b.get('targets',[]))
    th=[];mods=[]
    for m in re.finditer(r'^error: (Verif/\S+\.lean):(\d+):\d+',out,re.M):
        n=encl(DST+'/'+m.group(1),int(m.group(2)));mod=m.group(1)[:-5].replace('/','.')
        if n not in th: th.append(n)
        if mod not in mods: mods.append(mod)
    for m in re.finditer(r'^✖ \[\d+/\d+\] Building (Verif\S*)',out,re.M):
        # e.g. killed: a false closed claim makes the kernel run out of memory
        if m.group(1) not in mods: mods.append(m.group(1));th.append('(module %s)'%m.group(1))
    rec={'definition':b['definition'],'edit':b['old'].strip()+'  ==>  '+b['new'].strip(),'claim_broken':b['claim'],
         'theorems_failed':th[:12],'modules_no_longer_built':blocked(mods),'theorems_tightened':b.get('tightened',[])}
    print(json.dumps(rec,ensure_ascii=False)[:700]);print('   => ','CAUGHT' if th else 'SURVIVED',flush=True)
    if th or b.get('logsurvive'):
        with open('/verif/seeded/LOG.jsonl','a') as f: f.write(json.dumps(rec,ensure_ascii=False)+'\n')
sync()
