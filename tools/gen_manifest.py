"""Writes /verif/MANIFEST.json from the table below and checks it against properties.jsonl and the
Lean sources (every theorem named here must be declared somewhere under lean/Verif)."""
import json, re, pathlib, sys

root = pathlib.Path(__file__).resolve().parent.parent
C = {}

def claim(pid, status, theorems, note=""):
    assert pid not in C, pid
    C[pid] = dict(property=pid, status=status, theorems=theorems, note=note)

exec((root / "tools" / "claims.py").read_text())

props = [json.loads(l) for l in (root / "properties.jsonl").read_text().splitlines() if l.strip()]
ids = [p["id"] for p in props]
declared = set()
for f in (root / "lean" / "Verif").rglob("*.lean"):
    ns = []
    for line in f.read_text().splitlines():
        if m := re.match(r"namespace (\S+)", line):
            ns.append(m.group(1))
        elif m := re.match(r"end (\S+)", line):
            if ns and ns[-1] == m.group(1):
                ns.pop()
        elif m := re.match(r"(?:@\[[^\]]*\] )?(?:private )?theorem (\S+)", line):
            declared.add(".".join(ns + [m.group(1)]))
bad = [(p, t) for p, c in C.items() for t in c["theorems"] if t not in declared]
unknown = [p for p in C if p not in ids]
if bad or unknown:
    print("undeclared:", bad, "unknown ids:", unknown)
    sys.exit(1)
out = {"claims": [C[i] for i in ids if i in C]}
(root / "MANIFEST.json").write_text(json.dumps(out, indent=1) + "\n")
print(len(out["claims"]), "claims;", "missing:", [i for i in ids if i not in C])
used = {t for c in C.values() for t in c["theorems"]}
print("C-theorems not in manifest:", sorted(t for t in declared if re.search(r"\.C\d\d", t) and t not in used))

# The list of disagreements at the end of DESIGN.md.
mark = "<!-- disagreements: written by tools/gen_manifest.py -->\n"
design = (root / "DESIGN.md").read_text()
head = design[: design.index(mark) + len(mark)]
title = {p["id"]: p["title"] for p in props}
tail = "".join("* **%s** (%s). %s\n" % (c["property"], title[c["property"]], c["note"])
               for c in out["claims"] if c["status"] == "partial")
(root / "DESIGN.md").write_text(head + tail)
