#!/usr/bin/env python3
"""Regenerates /verif/MANIFEST.json from the theorem names in lean/Verif/Props/*.lean.
A property is "partial" when one of its theorems is a negation of the full statement or carries the
suffix _partial (or is listed in FORCE_PARTIAL); notes are in NOTES."""
import re,glob,json,os
here=os.path.dirname(os.path.abspath(__file__))
root=os.path.dirname(here)
exec(open(os.path.join(here,"notes.py")).read())
by={}
for f in sorted(glob.glob(root+"/lean/Verif/Props/*.lean")):
    ns=[]
    for line in open(f):
        m=re.match(r"namespace (\S+)",line)
        if m: ns.append(m.group(1))
        m=re.match(r"end (\S+)",line)
        if m and ns and ns[-1]==m.group(1): ns.pop()
        m=re.match(r"(?:protected )?theorem ((C\d\d+)_\S+)",line)
        if m: by.setdefault(m.group(2),[]).append(".".join(ns+[m.group(1)]))
claims=[]
for l in open(root+"/properties.jsonl"):
    pid=json.loads(l)["id"]
    ts=by.get(pid,[])
    if not ts:
        print("no theorem for",pid); continue
    part=any(t.endswith("_partial") or "negation" in t for t in ts) or pid in FORCE_PARTIAL
    claims.append({"property":pid,"status":"partial" if part else "proved","theorems":ts,"note":NOTES.get(pid,"")})
    if part and pid not in NOTES: print("no note for",pid)
for pid in by:
    if pid not in {c["property"] for c in claims}: print("unknown property",pid)
json.dump({"claims":claims},open(root+"/MANIFEST.json","w"),indent=1)
print(len(claims),"claims")
