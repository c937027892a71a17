import json,os
here=os.path.dirname(os.path.dirname(os.path.abspath(__file__)))
C={}
def claim(p,status,thms,note=""):
    C[p]={"property":p,"status":status,"theorems":thms,"note":note}
exec(open(os.path.join(here,'tools','claims.py')).read())
props=[json.loads(l)['id'] for l in open(os.path.join(here,'properties.jsonl'))]
out=[]
for p in props:
    if p in C: out.append(C[p])
extra=set(C)-set(props)
assert not extra, extra
json.dump({"claims":out},open(os.path.join(here,'MANIFEST.json'),'w'),indent=1)
print(len(out),'claims of',len(props),'; missing:',[p for p in props if p not in C])
