#!/usr/bin/env python3
"""Convert the raw mutation-run records (argv[1]) into seeded/LOG.jsonl."""
import json,sys,os
src=sys.argv[1] if len(sys.argv)>1 else '/tmp/mutw/results.jsonl'
extra=json.load(open(os.path.join(os.path.dirname(__file__),'mutnotes.json')))
here=os.path.dirname(os.path.abspath(__file__))
out=open(os.path.join(here,'../seeded/LOG.jsonl'),'w')
seen={}
for l in open(src):
    r=json.loads(l); seen[r['id']]=r
for r in seen.values():
    if extra.get(r['id'])=='DROP': continue
    x=extra.get(r['id'],{})
    ok=r['rc']!=0
    rec={'id':r['id'],'file':'lean/Verif/'+r['file'],'definition':r['defn'],'edit':r['edit'],
     'old':r['old'],'new':r['new'],'claim':x.get('claim',r['claim']) ,'broken_claims':x.get('claims',r['claims']),
     'failed_theorems':r['errs'],'property_files_no_longer_building':r['broken'],
     'verdict':x.get('verdict','caught' if ok else 'not caught'),'tightened':x.get('tightened',[])}
    if 'note' in x: rec['note']=x['note']
    out.write(json.dumps(rec,ensure_ascii=False)+'\n')
# one-token edits made by a random mutation program (operators, constants, argument orders) in every definition
import re
def encl(loc):
    if ':' not in loc: return loc
    f,n=loc.split(':')[:2]; p=os.path.join(here,'../lean',f)
    if not os.path.exists(p): return loc
    L=open(p).read().split('\n')
    for i in range(min(int(n),len(L))-1,-1,-1):
        m=re.match(r'(?:@\[.*?\]\s*)?(?:private |protected |noncomputable )*(theorem|lemma|def|instance|example|structure|abbrev)\b\s*(\S*)',L[i])
        if m: return (m.group(2) or m.group(1))+' ('+os.path.basename(f)[:-5]+')'
    return loc
auto={}
for f in ('auto_old.jsonl','auto.jsonl'):
    q=os.path.join(os.path.dirname(src),f)
    if os.path.exists(q):
        for l in open(q):
            r=json.loads(l)
            if r['status'] in('killed','SURVIVED'):
                k=(r['file'],r['defn'],r['old'],r['new'].strip())
                if k in auto and auto[k]['status']=='SURVIVED' and r['status']=='killed': r['was']=True
                auto[k]=r
why=json.load(open(os.path.join(here,'autonotes.json')))
n=0
for (f,d,o,nw),r in auto.items():
    n+=1
    rec={'id':'A%04d'%n,'file':'lean/Verif/'+f.split('/Verif/')[1],'definition':d,'edit':'one token','old':o,'new':nw,
     'claim':'the claims that rest on '+d,'failed_theorems':[encl(r['first'])+' (first; the build was stopped there)'] if r['first'] else [],
     'verdict':'caught' if r['status']=='killed' else 'not caught','tightened':[]}
    if r['status']=='SURVIVED' or r.get('was'): rec.update(why.get(d,{}))
    out.write(json.dumps(rec,ensure_ascii=False)+'\n')
