#!/usr/bin/env python3
"""Regenerates MANIFEST.json. Statuses and theorem names are listed here by hand."""
import json, re, pathlib
root = pathlib.Path(__file__).resolve().parent.parent
claims = json.load(open(root/"tools/claims.json"))
names = set()
for f in (root/"lean/Verif").rglob("*.lean"):
    ns = []
    for line in f.read_text().splitlines():
        m = re.match(r"namespace (\S+)", line)
        if m: ns.append(m.group(1)); continue
        m = re.match(r"end (\S+)", line)
        if m and ns and ns[-1] == m.group(1): ns.pop(); continue
        m = re.match(r"(?:private |protected |@\[.*?\] )*theorem (\S+)", line)
        if m: names.add(".".join(ns + [m.group(1)]))
out = []
for c in claims:
    for t in c["theorems"]:
        assert t in names, t
    out.append(c)
json.dump({"claims": out}, open(root/"MANIFEST.json", "w"), indent=1, ensure_ascii=False)
print(len(out), "claims")
