#!/usr/bin/env python3
"""Write AXIOMS.md: the axioms every theorem named in MANIFEST.json depends on.

Needs a finished `lake build`; asks Lean with `#print axioms`."""
import json, os, re, subprocess, tempfile
root = os.path.dirname(os.path.dirname(os.path.abspath(__file__)))
claims = json.load(open(f"{root}/MANIFEST.json"))["claims"]
names = [t for c in claims for t in c["theorems"]]
src = "import Verif\n" + "".join(f"#print axioms {n}\n" for n in names)
with tempfile.NamedTemporaryFile("w", suffix=".lean", delete=False) as f:
    f.write(src)
out = subprocess.run(["lake", "env", "lean", f.name], cwd=f"{root}/lean",
                     capture_output=True, text=True).stdout
os.unlink(f.name)
ax = {}
for m in re.finditer(r"^'(\S+)' (?:depends on axioms: \[([^\]]*)\]|does not depend on any axioms)", out, re.M):
    ax[m.group(1)] = sorted(x.strip() for x in (m.group(2) or "").split(",") if x.strip())
missing = [n for n in names if n not in ax]
groups = {}
for n in names:
    groups.setdefault(tuple(ax.get(n, ["?"])), []).append(n.removeprefix("Joque."))
with open(f"{root}/AXIOMS.md", "w") as f:
    f.write("# Axioms each property theorem depends on\n\nGenerated by `tools/gen_axioms.py` from `#print axioms`.\n")
    for k in sorted(groups, key=len):
        f.write(f"\n## {', '.join(k) or 'none'}\n\n" + ", ".join(f"`{n}`" for n in groups[k]) + "\n")
print(len(names), "theorems,", len(missing), "missing", missing[:5])
