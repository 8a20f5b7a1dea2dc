import json,os
here=os.path.dirname(os.path.abspath(__file__))
m={c['property']:c for c in json.load(open(here+'/../MANIFEST.json'))['claims']}
extra=open(here+'/design_modules.md').read() if os.path.exists(here+'/design_modules.md') else ''
out=open(here+'/design_head.md').read().replace('MODULES_EXTRA\n',extra)
out+='''
## How each property is modelled and proved
`status` as in `MANIFEST.json`. A partial claim is stated in full, proved as far as it is true, and refuted by a theorem
with a concrete program where the code violates it.

| | property | status | how | note |
|---|---|---|---|---|
'''
how=json.load(open(here+'/how.json'))
for l in open(here+'/../properties.jsonl'):
    d=json.loads(l);c=m[d['id']]
    out+=f"| {d['id']} | {d['title']} | {c['status']} | {how.get(d['id'],'')} | {c['note']} |\n".replace('`|','`')
out+=open(here+'/design_tail.md').read()
open(here+'/../DESIGN.md','w').write(out)
