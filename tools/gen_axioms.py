"""Writes /verif/AXIOMS.md: the axioms every theorem of MANIFEST.json depends on, as Lean's
`collectAxioms` reports them.  Needs a finished `lake build`."""
import json, os, re, subprocess, tempfile
ROOT = os.path.dirname(os.path.dirname(os.path.abspath(__file__)))
claims = json.load(open(os.path.join(ROOT, "MANIFEST.json")))["claims"]
names = sorted({t for c in claims for t in c["theorems"]})
src = ("import Verif\nimport Lean.Util.CollectAxioms\nopen Lean in\nrun_cmd do\n  for n in [%s] do\n"
       "    let a ← collectAxioms n\n    let s := (a.toList.map toString).mergeSort\n"
       "    logInfo m!\"AX {n} {\" \".intercalate s}\"\n") % ", ".join("`" + n for n in names)
with tempfile.NamedTemporaryFile("w", suffix=".lean", delete=False) as f:
    f.write(src)
out = subprocess.run(["lake", "env", "lean", f.name], cwd=os.path.join(ROOT, "lean"),
                     capture_output=True, text=True).stdout
os.unlink(f.name)
groups, seen = {}, set()
for m in re.finditer(r"AX (\S+) ?([^\n]*)", out):
    groups.setdefault(m.group(2).strip() or "none", []).append(m.group(1))
    seen.add(m.group(1))
assert seen == set(names), set(names) - seen
allowed = {"propext", "Classical.choice", "Quot.sound", "none"}
for g in groups:
    assert set(g.split()) <= allowed, g
with open(os.path.join(ROOT, "AXIOMS.md"), "w") as f:
    f.write("# Axioms of the theorems in MANIFEST.json\n\nWritten by `tools/gen_axioms.py` from Lean's "
            "`collectAxioms`.\n")
    for g in sorted(groups, key=lambda g: (len(g.split()), g)):
        f.write("\n## %s (%d theorems)\n\n" % (", ".join(g.split()), len(groups[g])))
        for n in sorted(groups[g]):
            f.write("* `%s`\n" % n)
print({g: len(v) for g, v in groups.items()})
