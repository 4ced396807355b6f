"""Regenerates MANIFEST.json: theorem names are collected from lean/Verif/Props, status and notes are below."""
import json, re, glob, os
here = os.path.dirname(os.path.abspath(__file__)); root = os.path.dirname(here)
NOTES = json.load(open(os.path.join(here, "notes.json")))
thms = {}
for f in sorted(glob.glob(os.path.join(root, "lean/Verif/Props/*.lean"))):
    stack = []
    for line in open(f):
        n = re.match(r"(namespace|section|noncomputable section)(?:\s+(\S+))?\s*$", line)
        if n:
            stack.append((n.group(1) == "namespace", n.group(2) or ""))
        if re.match(r"end(\s+\S+)?\s*$", line):
            stack.pop()
        ns = ".".join(x for isns, x in stack if isns)
        m = re.match(r"(?:private )?(?:theorem|lemma) (C(\d\d\d?)_\S+)", line)
        if m:
            thms.setdefault("C" + m.group(2), []).append(ns + "." + m.group(1))
ids = [json.loads(l)["id"] for l in open(os.path.join(root, "properties.jsonl"))]
claims = []
for i in ids:
    n = NOTES.get(i)
    if i not in thms and n is None:
        continue
    n = n or {"status": "proved", "note": ""}
    claims.append({"property": i, "status": n["status"], "theorems": thms.get(i, []), "note": n["note"]})
json.dump({"claims": claims}, open(os.path.join(root, "MANIFEST.json"), "w"), indent=1, ensure_ascii=False)
print(len(claims), "claims", sum(len(c["theorems"]) for c in claims), "theorems")
