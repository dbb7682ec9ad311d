#!/usr/bin/env python3
"""Regenerate MANIFEST.json: every theorem CNN_* of lean/Verif/Props is listed under property CNN.
A property with a theorem named *_violated* is false of the code and gets status partial."""
import json, re, glob, os
os.chdir(os.path.dirname(os.path.abspath(__file__)) + "/..")
props = [json.loads(l) for l in open("properties.jsonl") if l.strip()]
notes = json.load(open("tools/notes.json"))
th = {}
for f in sorted(glob.glob("lean/Verif/Props/*.lean")):
    for m in re.finditer(r"^theorem (C\d\d+)(_\w+)", open(f).read(), re.M):
        th.setdefault(m.group(1), []).append("Verif." + m.group(1) + m.group(2))
claims = []
for p in props:
    i = p["id"]
    names = th.get(i, [])
    if not names:
        if i in notes and notes[i].startswith("N/A"):
            claims.append({"property": i, "status": "not_applicable", "theorems": [], "note": notes[i]})
        continue
    viol = any("violated" in n for n in names)
    part = any(n.endswith("_partial") for n in names)
    st = "partial" if (viol or part) else "proved"
    note = notes.get(i, "")
    if viol:
        note = ("False of the code as it stands: the negation is proved with a witness, with the strongest true part and "
                "where possible the exact condition. " + note).strip()
    claims.append({"property": i, "status": st, "theorems": names, "note": note})
json.dump({"claims": claims}, open("MANIFEST.json", "w"), indent=1, ensure_ascii=False)
print(len(claims), "claims", sum(len(c["theorems"]) for c in claims), "theorems;",
      "missing:", [p["id"] for p in props if p["id"] not in {c["property"] for c in claims}])
