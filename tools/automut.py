#!/usr/bin/env python3
"""Generates mechanical mutants of the definitions in lean/Verif/Model for seed.py.
usage: automut.py SEED PER_DEF out.json [regex of files]"""
import re,json,glob,random,sys
seed,per,out=int(sys.argv[1]),int(sys.argv[2]),sys.argv[3]
pat=re.compile(sys.argv[4]) if len(sys.argv)>4 else re.compile('.')
rng=random.Random(seed)
claimof={}
for c in json.load(open('/verif/MANIFEST.json'))['claims']:
    for t in c['theorems']: claimof[t]=c['property']
deps={}
for line in open('/tmp/seed/deps.txt'):
    a=line.split(); deps[a[0]]=set(a[1:])
done=set()
for fn in ['/verif/seeded/LOG.jsonl','/tmp/seed/out.jsonl']:
    for l in open(fn):
        d=json.loads(l); done.add((d['definition'].split('Verif.Model.')[-1],d['edit']))
OPS=[(r' < ',' ≤ ','boundary'),(r' ≤ ',' < ','boundary'),(r' \+ 1\b','','off by one'),(r' - 1\b','','off by one'),
 (r' \+ ',' - ','wrong operator'),(r'\b1\b','2','wrong constant'),(r'\b0\b','1','wrong constant'),(r'\b(2|3|4|8)\b','5','wrong constant'),
 (r'\btrue\b','false','flipped flag'),(r'\bfalse\b','true','flipped flag'),(r' ≠ ',' = ','negated test'),
 (r'if ([^=:\n]*?) = ',r'if \1 ≠ ','negated test'),(r' && ',' || ','wrong connective'),(r' \|\| ',' && ','wrong connective'),
 (r' ∧ ',' ∨ ','wrong connective'),(r'\bi\b','j','wrong variable'),(r'\bj\b','i','wrong variable'),(r'\bi\b','(i + 1)','off by one'),
 (r'\bn\b','(n - 1)','off by one'),(r'\bk\b','(k + 1)','off by one'),(r' \+\+ (\[[^\]]*\])','','dropped output'),
 (r'\.reverse','','dropped reverse'),(r'\bmin\b','max','min/max'),(r'\bmax\b','min','min/max'),(r'\b97\b','98','wrong letter'),(r'\b98\b','97','wrong letter'),
 (r'\b(10|32|48|255|256)\b','11','wrong byte'),(r'\.length\b','.length + 1','off by one'),(r'\.length\b','.length - 1','off by one'),
 (r' % ',' / ','wrong operator'),(r' / ',' % ','wrong operator'),(r' \* ',' + ','wrong operator'),(r' < ',' > ','swapped comparison'),
 (r'pure \((\w+), (\w+)\)',r'pure (\2, \1)','swapped results'),(r'\.1\b','.2','wrong component'),(r'\.2\b','.1','wrong component'),
 (r'\.error \.\w+','.ok default','swallowed failure'),(r'forRange 0 ','forRange 1 ','loop start'),(r'none\b','default','missed case')]
muts=[]
for f in sorted(glob.glob('/tmp/seed/src/Verif/Model/*.lean')):
    short='Model/'+f.split('/')[-1][:-5]
    if not pat.search(short): continue
    s=open(f).read()
    for m in re.finditer(r'(?m)^(?:noncomputable )?(?:def|abbrev) (\S+?)(?=[\s:({\[])',s):
        name=m.group(1)
        e=re.search(r'(?m)^(/--|end |/-!)',s[m.start():]); body=s[m.start():m.start()+(e.start() if e else len(s))].rstrip()+'\n'
        k=body.find(':='); k2=body.find('\n  |')
        st=min(x for x in (k,k2) if x>0) if max(k,k2)>0 else 0
        cand=[]
        for a,b,why in OPS:
            for x in re.finditer(a,body):
                if x.start()<st: continue
                # extend to a unique context: whole line
                ls=body.rfind('\n',0,x.start())+1; le=body.find('\n',x.end()); le=len(body) if le<0 else le
                old=body[ls:le]; new=body[ls:x.start()]+x.expand(b)+body[x.end():le]
                if ' -- ' in old and x.start()>ls+old.find(' -- '): continue
                if body.count(old)!=1 or not old.strip(): continue
                if (name,f"{old}  ==>  {new}") in done or old==new: continue
                cand.append((old,new,why))
        rng.shuffle(cand)
        claims=sorted({claimof[t] for t,d in deps.items() if any(c=='Verif.Model.'+name or c.endswith('.'+name) for c in d)})
        seen=set()
        for old,new,why in cand:
            if len(seen)>=per: break
            if old in seen: continue
            seen.add(old)
            muts.append({"file":short,"def":name,"old":old,"new":new,"claim":','.join(claims),"why":"mechanical mutant ("+why+")"})
rng.shuffle(muts)
json.dump(muts,open(out,'w'),indent=1)
print(len(muts))
