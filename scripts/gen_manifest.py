#!/usr/bin/env python3
"""Regenerates MANIFEST.json from the theorem names in lean/Verif (theorem Cnn_...)."""
import json, re, pathlib
root = pathlib.Path(__file__).resolve().parent.parent
notes = json.loads((root / "scripts/notes.json").read_text())
thms = {}
for f in sorted((root / "lean/Verif").rglob("*.lean")):
    ns = []
    for line in f.read_text().splitlines():
        m = re.match(r"namespace (\S+)", line)
        if m: ns.append(m.group(1))
        m = re.match(r"end (\S+)", line)
        if m and ns and ns[-1] == m.group(1): ns.pop()
        m = re.match(r"theorem (C\d\d+)_(\S+)", line)
        if m: thms.setdefault(m.group(1), []).append(".".join(ns + [m.group(1) + "_" + m.group(2)]))
claims = []
for line in (root / "properties.jsonl").read_text().splitlines():
    p = json.loads(line)
    i = p["id"]; t = thms.get(i, []); n = notes.get(i, {})
    if isinstance(n, str): n = {"note": n}
    if not t and "status" not in n: continue
    st = n.get("status") or ("partial" if all(x.endswith("_partial") for x in t) else "proved")
    claims.append({"property": i, "status": st, "theorems": t, "note": n.get("note", "")})
(root / "MANIFEST.json").write_text('{"claims": [\n' + ",\n".join(json.dumps(c) for c in claims) + "\n]}\n")
print(len(claims), "claims;", sum(len(c["theorems"]) for c in claims), "theorems; uncovered:",
      [json.loads(l)["id"] for l in (root / "properties.jsonl").read_text().splitlines() if json.loads(l)["id"] not in [c["property"] for c in claims]])
