#!/usr/bin/env python3
"""Builds MANIFEST.json: every theorem named C<nn>_... in lean/Verif/*.lean is listed under property C<nn>."""
import json, re, glob, os
root = os.path.join(os.path.dirname(os.path.abspath(__file__)), "..")
thms = {}
for f in sorted(glob.glob(os.path.join(root, "lean/Verif/*.lean"))):
    ns = []
    for line in open(f):
        m = re.match(r"namespace\s+(\S+)", line)
        if m: ns.append(m.group(1))
        m = re.match(r"end\s+(\S+)", line)
        if m and ns and ns[-1] == m.group(1): ns.pop()
        m = re.match(r"(?:@\[[^\]]*\]\s*)?theorem\s+(C(\d+)_\S+)", line)
        if m and not m.group(1).endswith("_witness"): thms.setdefault("C%02d" % int(m.group(2)), []).append(".".join(ns + [m.group(1)]))
notes = json.load(open(os.path.join(root, "tools/notes.json")))
claims = []
for l in open(os.path.join(root, "properties.jsonl")):
    p = json.loads(l)["id"]
    n = notes.get(p, {})
    t = thms.get(p, [])
    st = n.get("status", "proved" if t else "partial")
    claims.append(dict(property=p, status=st, theorems=t,
                       note=n.get("note", "" if t else "not yet modelled")))
json.dump({"claims": claims}, open(os.path.join(root, "MANIFEST.json"), "w"), indent=1)
print(sum(len(c["theorems"]) for c in claims), "theorems;", [c["property"] for c in claims if not c["theorems"]], "open")
