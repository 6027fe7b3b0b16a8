#!/usr/bin/env python3
"""Regenerates the status table at the end of DESIGN.md from MANIFEST.json."""
import json
props={}
for l in open('/verif/properties.jsonl'):
    if l.strip():
        d=json.loads(l); props[d['id']]=d
head=open('/verif/design_head.md').read()
out=[head,"\n## Status per property\n\nGenerated from `MANIFEST.json`. `_violated` theorems prove, with an explicit witness, that the unchanged code breaks the\nfull claim; `_partial` theorems prove what does hold.\n\n| Id | Property | Status | Theorems (`Spf.Props.`) | Note |\n|----|----------|--------|--------------------------|------|\n"]
for c in json.load(open('/verif/MANIFEST.json'))['claims']:
    t=", ".join("`"+x.replace("Spf.Props.","")+"`" for x in c['theorems'])
    out.append(f"| {c['property']} | {props[c['property']]['title']} | {c['status']} | {t} | {c['note']} |\n")
open('/verif/DESIGN.md','w').write("".join(out))
