#!/usr/bin/env python3
"""Regenerates MANIFEST.json from the table below and properties.jsonl."""
import json,subprocess,re
C={}
def c(p,st,th,note=""): C[p]=(st,th.split(),note)
exec(open('/verif/manifest_table.py').read())
ids=[json.loads(l)["id"] for l in open('/verif/properties.jsonl') if l.strip()]
out=[]
for i in ids:
    if i in C:
        st,th,n=C[i]; out.append({"property":i,"status":st,"theorems":["Spf.Props."+t for t in th],"note":n})
json.dump({"claims":out},open('/verif/MANIFEST.json','w'),indent=1)
src=subprocess.run("cat /verif/lean/Verif/Props/*.lean",shell=True,capture_output=True,text=True).stdout
have=set(re.findall(r'theorem\s+(\S+)',src))
for i in C:
    for t in C[i][1]:
        if t not in have: print("missing",i,t)
print(len(out),"claims;","unlisted:",[i for i in ids if i not in C])
used={t for i in C for t in C[i][1]}
print("unused theorems:",sorted(have-used))
