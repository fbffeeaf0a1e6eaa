# regenerates MANIFEST.json from theorem names C##_* in Props and notes
import re,glob,json,os
# the note of a claim is its row in DESIGN.md
notes={}
for l in open('/verif/DESIGN.md'):
    m=re.match(r'\| (C[C\d, -]*) \| (.*?) \| (.*) \|$',l.strip())
    if not m: continue
    for r in m.group(1).split(','):
        e=[int(x.strip()[1:]) for x in r.split('-')]
        for i in range(e[0],e[-1]+1):
            notes.setdefault('C%02d'%i,{'note':'Modelled: '+m.group(2).strip()+'. Proof: '+m.group(3).strip()+'.'})
thms={}
for f in sorted(glob.glob('/verif/lean/Verif/Props/*.lean')):
    ns=[]
    for m in re.finditer(r'^(?:theorem (C(\d\d)_\w+)|namespace (\S+)|end (\S+))',open(f).read(),re.M):
        if m.group(3): ns.append(m.group(3))
        elif m.group(4):
            if ns and ns[-1]==m.group(4): ns.pop()
        else: thms.setdefault('C'+m.group(2),[]).append('.'.join(ns+[m.group(1)]))
claims=[]
for l in open('/verif/properties.jsonl'):
    o=json.loads(l); i=o['id']
    if i in thms:
        part=any(t.endswith('_partial') for t in thms[i])
        n=notes.get(i,{})
        claims.append({"property":i,"status":n.get('status','partial' if part else 'proved'),"theorems":thms[i],"note":n.get('note','')})
    else:
        claims.append({"property":i,"status":"partial","theorems":[],"note":"not modelled yet"})
json.dump({"claims":claims},open('/verif/MANIFEST.json','w'),indent=1,ensure_ascii=False)
