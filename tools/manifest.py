# Generates /verif/MANIFEST.json from the theorem names found in lean/Verif/Props (C<nn>_...) and the table below.
import json, re, glob
names={}
for f in sorted(glob.glob('/verif/lean/Verif/Props/*.lean')):
    for m in re.finditer(r'^theorem (C(\d\d+)_\w+)', open(f).read(), re.M):
        names.setdefault('C'+m.group(2), []).append('Estrade.'+m.group(1))
N={}
def n(c, status, note=''): N[c]=(status,note)
exec(open('/verif/tools/claims.py').read())
ids=[json.loads(l)['id'] for l in open('/verif/properties.jsonl')]
claims=[]
for i in ids:
    if i in N and i in names:
        claims.append(dict(property=i,status=N[i][0],theorems=names[i],note=N[i][1]))
json.dump(dict(claims=claims),open('/verif/MANIFEST.json','w'),indent=1)
print(len(claims),'claims;','missing',[i for i in ids if i not in names or i not in N],
  'odd',[i for i in names if i not in ids])
for c in claims:
    p=any(t.endswith('_partial') for t in c['theorems'])
    if p != (c['status']=='partial'): print('status?',c['property'],c['status'],c['theorems'])
