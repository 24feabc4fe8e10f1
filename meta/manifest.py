#!/usr/bin/env python3
"""Generates MANIFEST.json: theorems are the `Cxx_...` theorems in lean/Verif/Props/*.lean,
status and note come from meta/status.json."""
import json, re, glob, os
root = os.path.join(os.path.dirname(os.path.abspath(__file__)), "..")
status = json.load(open(os.path.join(root, "meta/status.json")))
thms = {}
for f in sorted(glob.glob(os.path.join(root, "lean/Verif/Props/*.lean"))):
    ns = []
    for line in open(f):
        m = re.match(r"namespace (\S+)", line)
        if m: ns.append(m.group(1))
        m = re.match(r"end (\S+)", line)
        if m and ns and ns[-1] == m.group(1): ns.pop()
        m = re.match(r"theorem (C\d\d+\w*'?)", line)
        if m:
            n = m.group(1)
            thms.setdefault(re.match(r"C\d+", n).group(0), []).append(".".join(ns + [n]))
ids = [json.loads(l)["id"] for l in open(os.path.join(root, "properties.jsonl"))]
claims = []
for i in ids:
    st = status.get(i)
    if st is None: 
        st = ["partial", "not yet proved"]
    t = thms.get(i, [])
    if not t and st[0] != "not_applicable":
        print("no theorems for", i); continue
    claims.append(dict(property=i, status=st[0], theorems=t, note=st[1]))
json.dump({"claims": claims}, open(os.path.join(root, "MANIFEST.json"), "w"), indent=1)
print(len(claims), "claims", sum(len(c["theorems"]) for c in claims), "theorems")
